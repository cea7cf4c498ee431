/-
Images and colors in documents (Spec/Document.lean): how they are read and printed.
-/
import Verif.Proof.DocParse
import Verif.Proof.Template

namespace Mitex
open Grammar (Item Items Row)

/-! ## Plain content

Of the arguments of an image only the text matters. -/

/-- Words, commas, blanks, slashes, and commands without arguments. -/
def Inert (spec : CommandSpec) (t : Tok) : Prop :=
  Grammar.isTextPart t.1 = true ∨ t.1 = .slash ∨ ∃ name, t = nameTok name ∧ Grammar.commandArgs spec name = .right .none

theorem leafOf_leaves (t : Tok) : (leafOf t).leaves = [lf t] := by
  simp [leafOf, lf, Elem.leaves]

theorem mem_takeWhile {α : Type} {p : α → Bool} : ∀ {l : List α} {a : α}, a ∈ l.takeWhile p → p a = true
  | [], a, h => by cases h
  | b :: l, a, h => by
    cases hb : p b with
    | false => rw [List.takeWhile_cons_of_neg (by rw [hb]; exact Bool.false_ne_true)] at h; cases h
    | true =>
      rw [List.takeWhile_cons_of_pos hb] at h
      rcases List.mem_cons.mp h with rfl | h
      · exact hb
      · exact mem_takeWhile h

theorem inert_items {rs : CommandSpec} {sc : Scope} {stop : List Token} (hl : DocLets stop) : ∀ (n : Nat) (L : List Tok), L.length ≤ n →
    (∀ t ∈ L, Inert rs t) → ∀ (r : Row) {k : List Tok}, Halted k → (∀ t, k.head? = some t → t.1 ∈ stop) →
    ∃ es f l, Items ⟨rs, globPrefix⟩ sc stop r (L ++ k) ⟨r.items ++ es, f, l⟩ k ∧ Elem.leaves.go es = L.map lf
  | n, [], hn, hi, r, k, hk, hs => ⟨[], r.first, r.last, by rw [List.append_nil]; exact .over hs, rfl⟩
  | 0, t :: L, hn, hi, r, k, hk, hs => absurd hn (by simp)
  | n + 1, t :: L, hn, hi, r, k, hk, hs => by
    have hn' : L.length ≤ n := by simpa using hn
    have hi' : ∀ t ∈ L, Inert rs t := fun u hu => hi u (List.mem_cons_of_mem _ hu)
    have one : ∀ (e : Elem) (att : Bool) (l : Option Int), t.1 ∈ docKinds → e.leaves = [lf t] →
        (∀ ts, Item ⟨rs, globPrefix⟩ sc false r (t :: ts) att ⟨r.items ++ [e], r.first, l⟩ ts) →
        ∃ es f l, Items ⟨rs, globPrefix⟩ sc stop r (t :: L ++ k) ⟨r.items ++ es, f, l⟩ k ∧ Elem.leaves.go es = (t :: L).map lf := by
      intro e att l hd he h
      obtain ⟨es, f', l', h1, h2⟩ := inert_items hl n L hn' hi' (if att then ⟨r.items ++ [e], r.first, some r.items.length⟩ else ⟨r.items ++ [e], r.first, l⟩) hk hs
      refine ⟨e :: es, f', l', .more (hl _ hd) (h (L ++ k)) ?_, ?_⟩
      · cases att <;> simpa using h1
      · simp [Elem.leaves.go, he, h2]
    rcases hi t List.mem_cons_self with h | h | ⟨name, rfl, h⟩
    · obtain ⟨kd, x⟩ := t
      unfold Grammar.isTextPart at h
      rw [Bool.or_eq_true] at h
      rcases h with h | h
      · unfold Grammar.isBlank at h
        have h' : kd ∈ [Token.lineBreak, .whitespace, .lineComment] := of_decide_eq_true h
        have hd : ∀ kd ∈ [Token.lineBreak, .whitespace, .lineComment], kd ∈ docKinds ∧ Grammar.single kd = some false := by decide
        exact one (leafOf (kd, x)) false r.last (hd kd h').1 (by rw [leafOf_leaves]) (fun ts => .single (hd kd h').2)
      · have h' : kd ∈ [Token.word, .comma] := of_decide_eq_true h
        have hd : ∀ kd ∈ [Token.word, .comma], kd ∈ docKinds ∧ (kd = .comma ∨ kd = .word) := by decide
        have hsplit : L = L.takeWhile (fun t => Grammar.isTextPart t.1) ++ L.dropWhile (fun t => Grammar.isTextPart t.1) := List.takeWhile_append_dropWhile.symm
        generalize hA : L.takeWhile (fun t => Grammar.isTextPart t.1) = A at hsplit
        generalize hB : L.dropWhile (fun t => Grammar.isTextPart t.1) = B at hsplit
        have hAt : ∀ t ∈ A, Grammar.isTextPart t.1 = true := fun t ht => by
          rw [← hA] at ht
          exact mem_takeWhile (p := fun t : Tok => Grammar.isTextPart t.1) ht
        have hBh : Halted (B ++ k) := by
          cases B with
          | nil => exact hk
          | cons b B =>
            intro u hu
            cases hu
            have := List.head?_dropWhile_not (fun t : Tok => Grammar.isTextPart t.1) L
            rw [hB] at this
            simpa using this
        have hBn : B.length ≤ n := by
          rw [hsplit, List.length_append] at hn'
          omega
        obtain ⟨es, f', l', h1, h2⟩ := inert_items hl n B hBn (fun u hu => hi' u (by rw [hsplit]; exact List.mem_append_right _ hu))
          ⟨r.items ++ [.node .itemText (((kd, x) :: A).map leafOf)], r.first, some r.items.length⟩ hk hs
        refine ⟨.node .itemText (((kd, x) :: A).map leafOf) :: es, f', l', ?_, ?_⟩
        · have hit := Item.text (env := ⟨rs, globPrefix⟩) (sc := sc) (one := false) (r := r) (k := kd) (x := x) (run := A) (ts := B ++ k)
            ((hd kd h').2.imp_right fun h => ⟨h, rfl⟩) hAt hBh
          rw [hsplit, List.cons_append, List.append_assoc]
          exact .more (hl _ (hd kd h').1) hit (by simpa [Row.add] using h1)
        · rw [hsplit]
          have : (Elem.node .itemText (((kd, x) :: A).map leafOf)).leaves = ((kd, x) :: A).map lf := by
            rw [leaves_node, leaves_go_map_leafOf]
          simp only [Elem.leaves.go, h2, this]
          simp
    · obtain ⟨kd, x⟩ := t
      cases h
      exact one (leafOf (.slash, x)) true r.last (show Token.slash ∈ docKinds by decide) (by rw [leafOf_leaves]) (fun ts => .single rfl)
    · exact one (.node .itemCmd [leafOf (nameTok name)]) true r.last (show Token.cmd .generic ∈ docKinds by decide)
        (by rw [leaves_node, leaves_go_one, leafOf_leaves]) (fun ts => .symbol rfl h)

/-- Plain content as an argument. -/
theorem inert_argument {rs : CommandSpec} {sc : Scope} {p : ArgPattern} {ks : List ArgKind} {k ts' blanks L : List Tok} {args : List Elem}
    (hL : ∀ t ∈ L, Inert rs t) (square : Bool) (hs : square = true → Grammar.seesGroup p .bracket = true)
    (ht : Grammar.takes globPrefix p ks (if square then .bracket else .term) = true)
    (ha : Grammar.Args ⟨rs, globPrefix⟩ sc p (ks ++ [if square then .bracket else .term]) k args blanks ts') :
    ∃ es, Elem.leaves.go es = L.map lf ∧
      Grammar.Args ⟨rs, globPrefix⟩ sc p ks ((if square then lsquare else lcurly) :: (L ++ (if square then rsquare else rcurly) :: k))
        (.node .clauseArgument [if square then squareElem es else curlyElem es] :: args) blanks ts' := by
  cases square with
  | false =>
    obtain ⟨es, f', l', h1, h2⟩ := inert_items (sc := .curlyItem) docLets_curly L.length L (Nat.le_refl _) hL ⟨[leafOf lcurly], some 1, none⟩
      (k := rcurly :: k) (.cons rfl) (fun t ht => by cases ht; decide)
    refine ⟨es, h2, ?_⟩
    have := Grammar.Args.group (sc := sc) (p := p) (ks := ks) (b := .curly) (x := ['{']) (args := args) (blanks := blanks) (ts' := ts') rfl ht h1
      (by rw [show rcurly = (.right .curly, ['}']) from rfl]; exact (congrArg (fun z => Grammar.Args _ sc p _ z args blanks ts')
            (congrArg Prod.snd closing_eq)).mpr ha)
    rw [show rcurly = (.right .curly, ['}']) from rfl] at this
    have he : Grammar.closing (Grammar.argGrouping .curly).2.2.1 ((Token.right .curly, ['}']) :: k) = ([leafOf (Token.right .curly, ['}'])], k) := closing_eq
    rw [he] at this
    exact this
  | true =>
    obtain ⟨es, f', l', h1, h2⟩ := inert_items (sc := .bracketItem) docLets_square L.length L (Nat.le_refl _) hL ⟨[leafOf lsquare], some 1, none⟩
      (k := rsquare :: k) (.cons rfl) (fun t ht => by cases ht; decide)
    refine ⟨es, h2, ?_⟩
    have := Grammar.Args.group (sc := sc) (p := p) (ks := ks) (b := .bracket) (x := ['[']) (args := args) (blanks := blanks) (ts' := ts') (hs rfl) ht h1
      (by rw [show rsquare = (.right .bracket, [']']) from rfl]; exact (congrArg (fun z => Grammar.Args _ sc p _ z args blanks ts')
            (congrArg Prod.snd closing_eq)).mpr ha)
    rw [show rsquare = (.right .bracket, [']']) from rfl] at this
    have he : Grammar.closing (Grammar.argGrouping .bracket).2.2.1 ((Token.right .bracket, [']']) :: k) = ([leafOf (Token.right .bracket, [']'])], k) := closing_eq
    rw [he] at this
    exact this

theorem undelimited_wrap {a b : Char} (ha : utf8Len a = 1) (hb : utf8Len b = 1) (l : Text) : undelimited (a :: (l ++ [b])) = some l := by
  have h1 : (a :: (l ++ [b])).getLast? = some b := by
    rw [← List.cons_append, List.getLast?_append]
    rfl
  cases l with
  | nil =>
    unfold undelimited
    rw [h1]
    exact if_pos ⟨ha, hb⟩
  | cons c l =>
    unfold undelimited
    rw [h1]
    simp only [List.cons_append]
    rw [if_pos ⟨ha, hb⟩]
    simp [List.dropLast]

/-- The text of a token list. -/
def toksText (L : List Tok) : Text := (L.map Prod.snd).flatten

theorem toksText_append (L M : List Tok) : toksText (L ++ M) = toksText L ++ toksText M := by simp [toksText]

theorem curlyArg_text {es : List Elem} {L : List Tok} (h : Elem.leaves.go es = L.map lf) :
    (Elem.node .clauseArgument [curlyElem es]).text = '{' :: (toksText L ++ ['}']) := by
  unfold Elem.text curlyElem toksText
  rw [leaves_node, leaves_go_one, leaves_node, Elem.leaves.go, leaves_go_append, h, leaves_go_one, leafOf_leaves, leafOf_leaves]
  simp [lf, lcurly, rcurly, Function.comp_def]

theorem squareArg_text {es : List Elem} {L : List Tok} (h : Elem.leaves.go es = L.map lf) :
    (Elem.node .clauseArgument [squareElem es]).text = '[' :: (toksText L ++ [']']) := by
  unfold Elem.text squareElem toksText
  rw [leaves_node, leaves_go_one, leaves_node, Elem.leaves.go, leaves_go_append, h, leaves_go_one, leafOf_leaves, leafOf_leaves]
  simp [lf, lsquare, rsquare, Function.comp_def]

/-! ## The tokens of images -/

theorem unitToks_append (u : ImageUnit) (k : List Tok) : u.toks k = u.toks [] ++ k := by cases u <;> rfl

theorem optionToks_append (o : ImageOption) (k : List Tok) : o.toks k = o.toks [] ++ k := by
  unfold ImageOption.toks
  rw [unitToks_append]
  simp

theorem optionsToks_append : ∀ (os : List ImageOption) (k : List Tok), optionsToks os k = optionsToks os [] ++ k
  | [], k => rfl
  | [o], k => optionToks_append o k
  | o :: p :: os, k => by
    rw [optionsToks, optionsToks, optionsToks_append (p :: os) k, optionToks_append, optionToks_append o (_ :: optionsToks _ [])]
    simp

theorem fileToks_append : ∀ (ws : List Text) (k : List Tok), fileToks ws k = fileToks ws [] ++ k
  | [], k => rfl
  | [w], k => rfl
  | w :: v :: ws, k => by
    rw [fileToks, fileToks, fileToks_append (v :: ws) k]
    rfl

theorem optionToks_text (o : ImageOption) : toksText (o.toks []) = o.latex := by
  unfold ImageOption.toks leadToks toksText ImageOption.latex ImageOption.word
  cases o.lead <;> cases o.unit <;> simp [ImageUnit.toks, ImageUnit.latex, nameTok]

theorem optionsToks_text : ∀ os : List ImageOption, toksText (optionsToks os []) = optionsLatex os
  | [] => rfl
  | [o] => optionToks_text o
  | o :: p :: os => by
    rw [optionsToks, optionToks_append, optionsLatex, toksText_append, optionToks_text, ← optionsToks_text (p :: os)]
    rfl

theorem fileToks_text : ∀ ws : List Text, toksText (fileToks ws []) = fileLatex ws
  | [] => rfl
  | [w] => by simp [fileToks, fileLatex, toksText]
  | w :: v :: ws => by
    rw [fileToks, fileLatex, ← fileToks_text (v :: ws)]
    simp [toksText, slashTok]

theorem takesNothing_args {spec : CommandSpec} {name : Text} (h : TakesNothing spec name) : Grammar.commandArgs spec name = .right .none := by
  unfold Grammar.commandArgs
  split
  · next sh hs => rw [h sh hs]; rfl
  · rfl

theorem option_inert {spec : CommandSpec} {o : ImageOption} (h : o.Ok spec) : ∀ t ∈ o.toks [], Inert spec t := by
  intro t ht
  unfold ImageOption.toks at ht
  rcases List.mem_append.mp ht with ht | ht
  · unfold leadToks at ht
    split at ht
    · cases ht
    · rw [List.mem_singleton.mp ht]; exact .inl rfl
  · rcases List.mem_cons.mp ht with rfl | ht
    · exact .inl rfl
    · have hu := h.2.2.2
      cases hc : o.unit <;> rw [hc] at ht hu
      · cases ht
      · rw [List.mem_singleton.mp ht]; exact .inr (.inr ⟨_, rfl, takesNothing_args hu⟩)
      · rw [List.mem_singleton.mp ht]; exact .inr (.inr ⟨_, rfl, takesNothing_args hu⟩)

theorem options_inert {spec : CommandSpec} : ∀ os : List ImageOption, (∀ o ∈ os, o.Ok spec) → ∀ t ∈ optionsToks os [], Inert spec t
  | [], h, t, ht => by cases ht
  | [o], h, t, ht => option_inert (h o List.mem_cons_self) t ht
  | o :: p :: os, h, t, ht => by
    rw [optionsToks, optionToks_append] at ht
    rcases List.mem_append.mp ht with ht | ht
    · exact option_inert (h o List.mem_cons_self) t ht
    · rcases List.mem_cons.mp ht with rfl | ht
      · exact .inl rfl
      · exact options_inert (p :: os) (fun q hq => h q (List.mem_cons_of_mem _ hq)) t ht

theorem file_inert {spec : CommandSpec} : ∀ ws : List Text, ∀ t ∈ fileToks ws [], Inert spec t
  | [], t, ht => by cases ht
  | [w], t, ht => by rw [List.mem_singleton.mp ht]; exact .inl rfl
  | w :: v :: ws, t, ht => by
    rw [fileToks] at ht
    rcases List.mem_cons.mp ht with rfl | ht
    · exact .inl rfl
    · rcases List.mem_cons.mp ht with rfl | ht
      · exact .inr (.inl rfl)
      · exact file_inert (v :: ws) t ht

/-! ## The options of images -/

theorem trim_lead {w t : Text} (h : ∀ c ∈ w, isWs c = true) : trim (w ++ t) = trim t := by
  unfold trim trimStart
  rw [List.dropWhile_append_of_pos h]

theorem trim_firm {t : Text} (h1 : ∀ c, t.head? = some c → isWs c = false) (h2 : ∀ c, t.getLast? = some c → isWs c = false) : trim t = t := by
  have key : ∀ t : Text, (∀ c, t.head? = some c → isWs c = false) → t.dropWhile isWs = t := by
    intro t h
    cases t with
    | nil => rfl
    | cons c t => rw [List.dropWhile_cons_of_neg (by rw [h c rfl]; exact Bool.false_ne_true)]
  unfold trim trimEnd trimStart
  rw [key t h1, key t.reverse (fun c hc => h2 c (by rw [List.head?_reverse] at hc; exact hc)), List.reverse_reverse]

/-- The option without the blanks before it. -/
def ImageOption.bare (o : ImageOption) : Text := o.key ++ '=' :: (o.value ++ o.unit.latex)

theorem unit_black (u : ImageUnit) : ∀ c ∈ u.latex, isWs c = false := by cases u <;> decide

theorem optionWord_black {w : Text} (h : OptionWord w) : ∀ c ∈ w, isWs c = false := fun c hc => (h.2 c hc).1.1

theorem bare_black {spec : CommandSpec} {o : ImageOption} (h : o.Ok spec) : ∀ c ∈ o.bare, isWs c = false := by
  intro c hc
  unfold ImageOption.bare at hc
  rcases List.mem_append.mp hc with hc | hc
  · exact optionWord_black h.2.1 c hc
  · rcases List.mem_cons.mp hc with rfl | hc
    · decide
    · rcases List.mem_append.mp hc with hc | hc
      · exact optionWord_black h.2.2.1 c hc
      · exact unit_black _ c hc

theorem blankChar_ws {w : Text} (h : ∀ c ∈ w, BlankChar c) : ∀ c ∈ w, isWs c = true := fun c hc => (h c hc).1

theorem noSuffix {suf v : Text} {c : Char} (hs : c ∈ suf) (hv : c ∉ v) : ¬ suf <:+ v := fun h => hv (h.subset hs)

theorem withoutEnd_none {suf v : Text} (h : ¬ suf <:+ v) : withoutEnd suf v = v := by
  rw [withoutEnd, dif_neg fun h' => h h'.2]

theorem withoutEnd_once {suf v : Text} (h0 : suf ≠ []) (h : ¬ suf <:+ v) : withoutEnd suf (v ++ suf) = v := by
  rw [withoutEnd, dif_pos ⟨h0, List.suffix_append v suf⟩]
  have : (v ++ suf).take ((v ++ suf).length - suf.length) = v := by
    rw [List.length_append, Nat.add_sub_cancel, List.take_left]
  rw [this, withoutEnd_none h]

theorem length_option {v : Text} (hv : '\\' ∉ v) (u : ImageUnit) : lengthText (v ++ u.latex) = v ++ (if u = .plain then [] else t!" * 100%") := by
  have h1 : ¬ t!"\\textwidth" <:+ v := noSuffix (c := '\\') (by decide) hv
  have h2 : ¬ t!"\\textheight" <:+ v := noSuffix (c := '\\') (by decide) hv
  unfold lengthText
  cases u with
  | plain =>
    rw [show ImageUnit.plain.latex = [] from rfl, List.append_nil, if_neg h1, if_neg h2]
    simp
  | width =>
    rw [show ImageUnit.width.latex = t!"\\textwidth" from rfl, if_pos (List.suffix_append _ _), withoutEnd_once (by decide) h1]
    rfl
  | height =>
    have h3 : ¬ t!"\\textwidth" <:+ v ++ t!"\\textheight" := by
      rintro ⟨p, hp⟩
      have := congrArg List.getLast? hp
      rw [List.getLast?_append, List.getLast?_append] at this
      exact absurd this (by simp)
    rw [show ImageUnit.height.latex = t!"\\textheight" from rfl, if_neg h3, if_pos (List.suffix_append _ _), withoutEnd_once (by decide) h2]
    rfl

theorem option_typst {spec : CommandSpec} {o : ImageOption} (h : o.Ok spec) (l : Text) (hl : ∀ c ∈ l, BlankChar c) : imageOption (l ++ o.bare) = o.typst := by
  have ht : trim (l ++ o.bare) = o.bare := by
    rw [trim_lead (blankChar_ws hl), trim_black (bare_black h)]
  have hval : ∀ c ∈ o.value ++ o.unit.latex, isWs c = false := by
    intro c hc
    rcases List.mem_append.mp hc with hc | hc
    · exact optionWord_black h.2.2.1 c hc
    · exact unit_black _ c hc
  have hb : '\\' ∉ o.value := fun hc => (h.2.2.1.2 _ hc).1.2 (by decide)
  have hs : o.bare.splitOn '=' = [o.key, o.value ++ o.unit.latex] := by
    have := List.splitOn_intercalate (ls := [o.key, o.value ++ o.unit.latex]) '=' (fun w hw he => by
      rcases List.mem_cons.mp hw with rfl | hw
      · exact (h.2.1.2 _ he).2 rfl
      · rw [List.mem_singleton.mp hw] at he
        rcases List.mem_append.mp he with he | he
        · exact (h.2.2.1.2 _ he).2 rfl
        · exact absurd he (by cases o.unit <;> decide)) (by simp)
    have hj : ['='].intercalate [o.key, o.value ++ o.unit.latex] = o.bare := by simp [List.intercalate, ImageOption.bare]
    rw [hj] at this
    exact this
  unfold imageOption ImageOption.typst
  simp only [ht, hs, List.headD_cons, trim_black (optionWord_black h.2.1), List.length_cons, List.length_nil, List.getLastD_cons, List.getLastD_nil,
    trim_black hval]
  simp [length_option hb]

theorem option_noComma {spec : CommandSpec} {o : ImageOption} (h : o.Ok spec) : ',' ∉ o.bare := by
  intro hc
  unfold ImageOption.bare at hc
  rcases List.mem_append.mp hc with hc | hc
  · exact (h.2.1.2 _ hc).1.2 (by decide)
  · rcases List.mem_cons.mp hc with hc | hc
    · cases hc
    · rcases List.mem_append.mp hc with hc | hc
      · exact (h.2.2.1.2 _ hc).1.2 (by decide)
      · exact absurd hc (by cases o.unit <;> decide)

theorem lead_noComma {l : Text} (h : ∀ c ∈ l, BlankChar c) : ',' ∉ l := fun hc => absurd (h _ hc).1 (by decide)

theorem bare_head {spec : CommandSpec} {o : ImageOption} (h : o.Ok spec) : ∃ c r, o.bare = c :: r ∧ isWs c = false := by
  unfold ImageOption.bare
  cases hk : o.key with
  | nil => exact absurd hk h.2.1.1
  | cons c r => exact ⟨c, _, rfl, optionWord_black h.2.1 c (by rw [hk]; exact List.mem_cons_self)⟩

theorem options_join : ∀ (o : ImageOption) (os : List ImageOption), optionsLatex (o :: os) = [','].intercalate (o.latex :: os.map ImageOption.latex)
  | o, [] => by simp [optionsLatex, List.intercalate]
  | o, p :: os => by
    rw [optionsLatex, options_join p os]
    simp [List.intercalate]

theorem options_last {spec : CommandSpec} : ∀ (o : ImageOption) (os : List ImageOption), (∀ p ∈ o :: os, p.Ok spec) → ∀ (s : Text) (c : Char),
    (s ++ optionsLatex (o :: os)).getLast? = some c → isWs c = false
  | o, [], h, s, c, hc => by
    rw [optionsLatex, show o.latex = o.lead ++ o.bare from rfl, ← List.append_assoc, List.getLast?_append] at hc
    obtain ⟨d, r, h1, h2⟩ := bare_head (h o List.mem_cons_self)
    cases hg : o.bare.getLast? with
    | none => rw [h1] at hg; simp at hg
    | some e =>
      rw [hg] at hc
      cases hc
      exact bare_black (h o List.mem_cons_self) _ (List.mem_of_getLast? hg)
  | o, p :: os, h, s, c, hc => by
    rw [optionsLatex, show s ++ (o.latex ++ ',' :: optionsLatex (p :: os)) = (s ++ (o.latex ++ [','])) ++ optionsLatex (p :: os) by simp] at hc
    exact options_last p os (fun q hq => h q (List.mem_cons_of_mem _ hq)) _ c hc

theorem options_typst {spec : CommandSpec} (os : List ImageOption) (h : ∀ o ∈ os, o.Ok spec) (h0 : os ≠ []) :
    ((trim (optionsLatex os)).splitOn ',').flatMap imageOption = optionsTypst os := by
  cases os with
  | nil => exact absurd rfl h0
  | cons o os =>
    have ho := h o List.mem_cons_self
    have h1 : trim (optionsLatex (o :: os)) = [','].intercalate (o.bare :: os.map ImageOption.latex) := by
      have e1 : optionsLatex (o :: os) = o.lead ++ [','].intercalate (o.bare :: os.map ImageOption.latex) := by
        rw [options_join, show o.latex = o.lead ++ o.bare from rfl]
        cases os <;> simp [List.intercalate]
      rw [e1, trim_lead (blankChar_ws ho.1)]
      refine trim_firm (fun c hc => ?_) (fun c hc => ?_)
      · obtain ⟨d, r, h1, h2⟩ := bare_head ho
        rw [h1] at hc
        have : ∀ (d : Char) (r : Text) (ls : List Text), ([','].intercalate ((d :: r) :: ls)).head? = some d := by
          intro d r ls
          cases ls <;> simp [List.intercalate]
        rw [this] at hc
        cases hc
        exact h2
      · exact options_last o os h o.lead c (by
          rw [options_join]
          rw [List.getLast?_append]
          have e2 : [','].intercalate (o.latex :: os.map ImageOption.latex) = o.lead ++ [','].intercalate (o.bare :: os.map ImageOption.latex) := by
            rw [← options_join]; exact e1
          rw [e2, List.getLast?_append, hc]
          rfl)
    rw [h1, List.splitOn_intercalate]
    · rw [List.flatMap_cons, optionsTypst]
      have e3 := option_typst ho [] (fun c hc => (by cases hc))
      rw [List.nil_append] at e3
      rw [e3]
      congr 1
      have : ∀ os : List ImageOption, (∀ o ∈ os, o.Ok spec) → (os.map ImageOption.latex).flatMap imageOption = optionsTypst os := by
        intro os
        induction os with
        | nil => exact fun _ => rfl
        | cons p os ih =>
          intro hp
          rw [List.map_cons, List.flatMap_cons, optionsTypst, ih fun q hq => hp q (List.mem_cons_of_mem _ hq)]
          rw [show p.latex = p.lead ++ p.bare from rfl, option_typst (hp p List.mem_cons_self) p.lead (hp p List.mem_cons_self).1]
      exact this os fun q hq => h q (List.mem_cons_of_mem _ hq)
    · intro w hw
      rcases List.mem_cons.mp hw with rfl | hw
      · exact option_noComma ho
      · obtain ⟨p, hp, rfl⟩ := List.mem_map.mp hw
        intro hc
        rcases List.mem_append.mp (show ',' ∈ p.lead ++ p.bare from hc) with hc | hc
        · exact lead_noComma (h p (List.mem_cons_of_mem _ hp)).1 hc
        · exact option_noComma (h p (List.mem_cons_of_mem _ hp)) hc
    · simp

/-! ## Images -/

theorem fileLatex_black : ∀ ws : List Text, (∀ w ∈ ws, IsWord w) → ∀ c ∈ fileLatex ws, isWs c = false
  | [], h, c, hc => by cases hc
  | [w], h, c, hc => ((h w List.mem_cons_self).2 c hc).1
  | w :: v :: ws, h, c, hc => by
    rw [fileLatex] at hc
    rcases List.mem_append.mp hc with hc | hc
    · exact ((h w List.mem_cons_self).2 c hc).1
    · rcases List.mem_cons.mp hc with rfl | hc
      · decide
      · exact fileLatex_black (v :: ws) (fun q hq => h q (List.mem_cons_of_mem _ hq)) c hc

/-- The optional argument, if there is one. -/
def optArgs (some : Bool) (es : List Elem) : List Elem := if some then [.node .clauseArgument [squareElem es]] else []

theorem image_writes {spec spec' : CommandSpec} {x : Place} {opts : List ImageOption} {file : List Text} {es fs : List Elem} (h1 : ∀ o ∈ opts, o.Ok spec')
    (h2 : ∀ w ∈ file, IsWord w) (he : Elem.leaves.go es = (optionsToks opts []).map lf) (hf : Elem.leaves.go fs = (fileToks file []).map lf) (b : Bool) :
    Printed spec x (.node .itemCmd (leafOf (nameTok t!"includegraphics") :: (optArgs (!opts.isEmpty) es ++ [.node .clauseArgument [curlyElem fs]])))
      (mem b) (t!"#image(" ++ optionsTypst opts ++ t!"\"" ++ fileLatex file ++ t!"\")") (mem false) := by
  refine printed_of_all (ps := [.text (t!"#image(" ++ optionsTypst opts ++ t!"\"" ++ fileLatex file ++ t!"\")")]) (fun h => (by cases h)) ?_
    (ShowsAll.go (.one _) (mem false) rfl)
  have hfile : orCrash (undelimited (Elem.node .clauseArgument [curlyElem fs]).text) = .ok (fileLatex file) := by
    rw [curlyArg_text hf, undelimited_wrap (by decide) (by decide), fileToks_text]
    rfl
  have ht : ∀ as, template spec x (.node .itemCmd (leafOf (nameTok t!"includegraphics") :: as)) =
      imageTemplate (.node .itemCmd (leafOf (nameTok t!"includegraphics") :: as)) := fun as => rfl
  rw [ht]
  cases opts with
  | nil =>
    show (orCrash (some (Elem.node .clauseArgument [curlyElem fs])) >>= fun file => _) = _
    show (orCrash (undelimited (Elem.node .clauseArgument [curlyElem fs]).text) >>= fun f => _) = _
    rw [hfile]
    show Except.ok _ = _
    rw [trim_black (fileLatex_black file h2)]
    rfl
  | cons o os =>
    have hopt : orCrash (undelimited (Elem.node .clauseArgument [squareElem es]).text) = .ok (optionsLatex (o :: os)) := by
      rw [squareArg_text he, undelimited_wrap (by decide) (by decide), optionsToks_text]
      rfl
    show (orCrash (undelimited (Elem.node .clauseArgument [curlyElem fs]).text) >>= fun f =>
      (orCrash (undelimited (Elem.node .clauseArgument [squareElem es]).text)).map (fun t => ((trim t).splitOn ',').flatMap imageOption) >>= fun o => _) = _
    rw [hfile, hopt]
    show Except.ok _ = _
    rw [trim_black (fileLatex_black file h2)]
    dsimp only
    rw [options_typst (o :: os) h1 (by simp)]

theorem image_takes {rs ps : CommandSpec} {env : LEnv} {n : Nat} {opts : List ImageOption} {file : List Text}
    (hr : ∃ p, KnownCommand rs t!"includegraphics" p ∧ FitsKinds p ((if opts.isEmpty then [] else [.bracket]) ++ [.term]))
    (h1 : ∀ o ∈ opts, o.Ok rs) (h2 : ∀ w ∈ file, IsWord w) : Takes rs ps ⟨.text, env, n⟩ (.image opts file) := by
  obtain ⟨p, ⟨sh, h3, h4⟩, h5, h6, h7, h8⟩ := hr
  refine command_takes (toks := fun k => if opts.isEmpty then lcurly :: fileToks file (rcurly :: k)
    else lsquare :: optionsToks opts (rsquare :: lcurly :: fileToks file (rcurly :: k))) h3 h4 (fitsKinds_ne h7 (by simp)) h5 h6
    (fun k => by rw [Prose.toks]) (by simp [Prose.endsLine]) ⟨fun _ => by decide, fun _ => by decide⟩ fun {sc k} fill hs => ?_
  cases opts with
  | nil =>
    obtain ⟨fs, a1, a2⟩ := inert_argument (rs := rs) (sc := sc) (p := p) (ks := []) (file_inert file) false (fun h => (by cases h)) h7.1
      (args_fill (spec := rs) (sc := sc) h7.2 hs fill)
    refine ⟨[.node .clauseArgument [curlyElem fs]], ?_, fun b => ?_⟩
    · show Grammar.Args _ _ _ _ (lcurly :: fileToks file (rcurly :: (fillToks fill ++ k))) _ _ _
      rw [fileToks_append]
      exact a2
    · rw [Prose.typst]
      exact image_writes (opts := []) (es := []) h1 h2 rfl a1 b
  | cons o os =>
    obtain ⟨fs, a1, a2⟩ := inert_argument (rs := rs) (sc := sc) (p := p) (ks := [.bracket]) (file_inert file) false (fun h => (by cases h)) h7.2.1
      (args_fill (spec := rs) (sc := sc) h7.2.2 hs fill)
    obtain ⟨es, b1, b2⟩ := inert_argument (rs := rs) (sc := sc) (p := p) (ks := []) (options_inert (o :: os) h1) true
      (fun _ => h8 (by simp)) h7.1 a2
    refine ⟨[.node .clauseArgument [squareElem es], .node .clauseArgument [curlyElem fs]], ?_, fun b => ?_⟩
    · show Grammar.Args _ _ _ _ (lsquare :: optionsToks (o :: os) (rsquare :: lcurly :: fileToks file (rcurly :: (fillToks fill ++ k)))) _ _ _
      rw [optionsToks_append, fileToks_append]
      exact b2
    · rw [Prose.typst]
      exact image_writes (opts := o :: os) (es := es) h1 h2 b1 a1 b

/-! ## Colors -/

theorem colorName_eq {spec : CommandSpec} {name : Text} : colorFunction spec ('\\' :: name) = colorName spec name := by
  unfold colorFunction colorName
  rfl

def modelText (model : Option Text) : Text :=
  match model with
  | some m => t!"[" ++ m ++ t!"]"
  | none => t!"none"

theorem colored_writes {spec : CommandSpec} {env : LEnv} {n : Nat} {name : Text} (hn : name = t!"textcolor" ∨ name = t!"colorbox") {model : Option Text}
    {ms : List Elem} {c d : Elem} {t u : Text} (hm : ∀ m, model = some m → IsWord m ∧ Elem.leaves.go ms = [lf (.word, m)])
    (hc : Printed spec ⟨.text, env, n⟩ c (mem false) t (mem false)) (hd : Printed spec ⟨.text, env, n⟩ d (mem false) u (mem false))
    (hck : (Elem.node .clauseArgument [c]).text.head? = some '{') (b : Bool) :
    Printed spec ⟨.text, env, n⟩ (.node .itemCmd (leafOf (nameTok name) :: (optArgs model.isSome ms ++ [.node .clauseArgument [c], .node .clauseArgument [d]])))
      (mem b) (colorName spec name ++ t!"(" ++ modelText model ++ t!", [" ++ t ++ t!"])[" ++ u ++ t!"];") (mem false) := by
  have hfull : ('\\' :: name) ≠ t!"\\color" := by rcases hn with rfl | rfl <;> decide
  have ht : ∀ as, template spec ⟨.text, env, n⟩ (.node .itemCmd (leafOf (nameTok name) :: as)) =
      colorTemplate spec ⟨.text, env, n⟩ ('\\' :: name) (.node .itemCmd (leafOf (nameTok name) :: as)) := by
    rcases hn with rfl | rfl <;> exact fun as => rfl
  have hargs : (Elem.node .itemCmd (leafOf (nameTok name) :: (optArgs model.isSome ms ++ [.node .clauseArgument [c], .node .clauseArgument [d]]))).arguments
      = optArgs model.isSome ms ++ [.node .clauseArgument [c], .node .clauseArgument [d]] := by
    cases model <;> rfl
  generalize he : Elem.node .itemCmd (leafOf (nameTok name) :: (optArgs model.isSome ms ++ [.node .clauseArgument [c], .node .clauseArgument [d]])) = e at hargs
  have hmodel : colorModel ('\\' :: name) e = model := by
    unfold colorModel
    rw [if_neg hfull, hargs]
    cases model with
    | none =>
      show (if _ ∧ _ then _ else _) = _
      rw [if_neg]
      rintro ⟨h1, -⟩
      rw [hck] at h1
      cases h1
    | some m =>
      show (if (Elem.node .clauseArgument [squareElem ms]).text.head? = _ ∧ _ then _ else _) = _
      have htext : (Elem.node .clauseArgument [squareElem ms]).text = '[' :: (m ++ [']']) := by
        rw [squareArg_text (L := [(.word, m)]) (hm m rfl).2]
        simp [toksText]
      rw [htext, if_pos]
      · simp
      · refine ⟨rfl, ?_, ?_⟩
        · rw [← List.cons_append, List.getLast?_append]; rfl
        · show 2 ≤ byteLen ('[' :: (m ++ [']']))
          have h1 : byteLen ('[' :: (m ++ [']'])) = 1 + (byteLen m + 1) := by
            show utf8Len '[' + byteLen (m ++ [']']) = _
            rw [byteLen_append]
            rfl
          omega
  have hparts : coloredParts ('\\' :: name) e = [.node .clauseArgument [c], .node .clauseArgument [d]] := by
    unfold coloredParts
    rw [if_neg hfull, hargs]
    cases model with
    | none =>
      show (if _ ∧ _ then _ else _) = _
      rw [if_neg]
      rintro ⟨h1, -⟩
      rw [hck] at h1
      cases h1
    | some m =>
      show (if (Elem.node .clauseArgument [squareElem ms]).text.head? = _ ∧ _ then _ else _) = _
      have htext : (Elem.node .clauseArgument [squareElem ms]).text = '[' :: (m ++ [']']) := by
        rw [squareArg_text (L := [(.word, m)]) (hm m rfl).2]
        simp [toksText]
      rw [htext, if_pos]
      · rfl
      · refine ⟨rfl, ?_, ?_⟩
        · rw [← List.cons_append, List.getLast?_append]; rfl
        · show 2 ≤ byteLen ('[' :: (m ++ [']']))
          have h1 : byteLen ('[' :: (m ++ [']'])) = 1 + (byteLen m + 1) := by
            show utf8Len '[' + byteLen (m ++ [']']) = _
            rw [byteLen_append]
            rfl
          omega
  have h0 := PrintedAll.text (spec := spec) (colorName spec name ++ t!"(" ++ modelText model ++ t!", [") (PrintedAll.part (argument_writes hc (b := false)) (PrintedAll.text t!"])["
      (PrintedAll.part (argument_writes hd (b := false)) (PrintedAll.text t!"]" (PrintedAll.text t!";" (PrintedAll.nil (mem false)))))))
  have hte : template spec ⟨.text, env, n⟩ e = colorTemplate spec ⟨.text, env, n⟩ ('\\' :: name) e := by rw [← he]; exact ht _
  have hke : e.kind ≠ .tokenWhiteSpace := by rw [← he]; exact fun h => (by cases h)
  unfold colorTemplate at hte
  rw [if_neg (fun h => hfull h.1), hmodel, hparts, colorName_eq] at hte
  have h1 := printed_of_all (b := b) hke hte (t := _) (b' := false) h0
  simpa using h1

theorem curlyArg_head (es : List Elem) : (Elem.node .clauseArgument [curlyElem es]).text.head? = some '{' := by
  have : Elem.leaves (.node .clauseArgument [curlyElem es]) = lf lcurly :: (Elem.leaves.go es ++ [lf rcurly]) := by
    rw [curlyElem, leaves_node, leaves_go_one, leaves_node, Elem.leaves.go, leaves_go_append, leaves_go_one, leafOf_leaves, leafOf_leaves]
    rfl
  unfold Elem.text
  rw [this]
  rfl

theorem colored_takes {rs ps : CommandSpec} {env : LEnv} {n : Nat} {name : Text} {model : Option Text} {color body : Doc}
    (hn : name = t!"textcolor" ∨ name = t!"colorbox")
    (hr : ∃ p, KnownCommand rs name p ∧ FitsKinds p ((if model.isSome then [.bracket] else []) ++ [.term, .term])) (hm : ∀ m, model = some m → IsWord m)
    (hc : DocReads rs ps ⟨.text, env, n⟩ color.toks (color.typst ps ⟨.text, env, n⟩) color.endsLine color.hasBracket)
    (hd : DocReads rs ps ⟨.text, env, n⟩ body.toks (body.typst ps ⟨.text, env, n⟩) body.endsLine body.hasBracket) :
    Takes rs ps ⟨.text, env, n⟩ (.colored name model color body) := by
  obtain ⟨p, ⟨sh, h3, h4⟩, h5, h6, h7, h8⟩ := hr
  refine command_takes (toks := fun k => optToks model (lcurly :: color.toks (rcurly :: lcurly :: body.toks (rcurly :: k)))) h3 h4
    (fitsKinds_ne h7 (by simp)) h5 h6 (fun k => by rw [Prose.toks]) (by simp [Prose.endsLine])
    (by rcases hn with rfl | rfl <;> exact ⟨fun _ => by decide, fun _ => by decide⟩) fun {sc k} fill hs => ?_
  cases model with
  | none =>
    obtain ⟨fs, a1, a2⟩ := doc_argument (sc := sc) (p := p) (ks := [.term]) hd false (fun h => (by cases h)) (fun h => (by cases h)) h7.2.1
      (args_fill (spec := rs) (sc := sc) h7.2.2 hs fill)
    obtain ⟨es, b1, b2⟩ := doc_argument (sc := sc) (p := p) (ks := []) hc false (fun h => (by cases h)) (fun h => (by cases h)) h7.1 a2
    refine ⟨_, b2, fun b => ?_⟩
    rw [Prose.typst]
    exact colored_writes (model := Option.none) (ms := []) hn (fun m h => (by cases h)) (curly_writes b1.writes false) (curly_writes a1.writes false)
      (curlyArg_head es) b
  | some m =>
    obtain ⟨fs, a1, a2⟩ := doc_argument (sc := sc) (p := p) (ks := [.bracket, .term]) hd false (fun h => (by cases h)) (fun h => (by cases h)) h7.2.2.1
      (args_fill (spec := rs) (sc := sc) h7.2.2.2 hs fill)
    obtain ⟨es, b1, b2⟩ := doc_argument (sc := sc) (p := p) (ks := [.bracket]) hc false (fun h => (by cases h)) (fun h => (by cases h)) h7.2.1 a2
    obtain ⟨ms, c1, c2⟩ := inert_argument (rs := rs) (sc := sc) (p := p) (ks := []) (L := [(.word, m)])
      (fun t ht => by rw [List.mem_singleton.mp ht]; exact .inl rfl) true (fun _ => h8 (by simp)) h7.1 b2
    refine ⟨_, c2, fun b => ?_⟩
    rw [Prose.typst]
    exact colored_writes (model := some m) (ms := ms) hn (fun m' h => by cases h; exact ⟨hm m rfl, c1⟩) (curly_writes b1.writes false)
      (curly_writes a1.writes false) (curlyArg_head es) b

end Mitex
