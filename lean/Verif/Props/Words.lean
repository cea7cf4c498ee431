/-
C82: names are never joined.
-/
import Verif.Spec.Within
import Verif.Proof.WordsAll
import Verif.Props.Nesting

namespace Mitex

theorem symbol_parts {spec : CommandSpec} {x y : Place} {e c : Elem} {ps : List Piece} (ht : template spec x e = .ok ps) (hc : .part y c ∈ ps) :
    e.kind ≠ .tokenCommandSym := by
  intro hk
  cases e with
  | node k cs =>
    have hk : k = .tokenCommandSym := hk
    subst hk
    cases ht
  | token k t =>
    have hk : k = .tokenCommandSym := hk
    subst hk
    have : template spec x (.token .tokenCommandSym t) = tokenTemplate spec x .tokenCommandSym t := rfl
    rw [this] at ht
    simp only [tokenTemplate, bind, Except.bind] at ht
    split at ht
    · cases ht
    · split at ht
      · cases ht
        rcases List.mem_cons.1 hc with h | h
        · cases h
        · cases h
      · cases ht

theorem printedAll_append {spec : CommandSpec} {ps qs : List Piece} {m m' : Mem} {t : Text} (h : PrintedAll spec (ps ++ qs) m t m') :
    ∃ a m1 b, PrintedAll spec ps m a m1 ∧ PrintedAll spec qs m1 b m' ∧ t = a ++ b := by
  induction ps generalizing m t with
  | nil => exact ⟨[], m, t, .nil m, h, rfl⟩
  | cons p ps ih =>
    cases h with
    | text u k => obtain ⟨a, m1, b, h1, h2, rfl⟩ := ih k; exact ⟨_, m1, b, .text u h1, h2, by rw [List.append_assoc]⟩
    | part h k => obtain ⟨a, m1, b, h1, h2, rfl⟩ := ih k; exact ⟨_, m1, b, .part h h1, h2, by rw [List.append_assoc]⟩
    | blank h k => obtain ⟨a, m1, b, h1, h2, rfl⟩ := ih k; exact ⟨_, m1, b, .blank h h1, h2, by rw [List.append_assoc]⟩
    | dropped h k => obtain ⟨a, m1, b, h1, h2, rfl⟩ := ih k; exact ⟨_, m1, b, .dropped h h1, h2, rfl⟩
    | dropBlank k => obtain ⟨a, m1, b, h1, h2, rfl⟩ := ih k; exact ⟨_, m1, b, .dropBlank h1, h2, rfl⟩
    | keepLabel k => obtain ⟨a, m1, b, h1, h2, rfl⟩ := ih k; exact ⟨_, m1, b, .keepLabel h1, h2, rfl⟩
    | putLabel h k => obtain ⟨a, m1, b, h1, h2, rfl⟩ := ih k; exact ⟨_, m1, b, .putLabel h h1, h2, by simp only [List.append_assoc]⟩
    | noLabel h k => obtain ⟨a, m1, b, h1, h2, rfl⟩ := ih k; exact ⟨_, m1, b, .noLabel h h1, h2, rfl⟩

theorem within_words {spec : CommandSpec} {x z : Place} {e d : Elem} (hw : Within spec x e z d) : ∀ {m m' : Mem} {t : Text}, Fit e →
    Printed spec x e m t m' → ∃ p s q m1 m2, t = p ++ s ++ q ∧ Printed spec z d m1 s m2 ∧ wordsOf t = wordsOf p ++ wordsOf s ++ wordsOf q := by
  induction hw with
  | here x e => intro m m' t _ h; exact ⟨[], t, [], m, m', by simp, h, by simp [wordsOf]⟩
  | @part x y z e c d ps hm ht hc _ ih =>
    intro m m' t hf h
    obtain ⟨ps1, ps2, rfl⟩ := List.append_of_mem hc
    cases h with
    | mk h k =>
      rw [ht] at h
      cases h
      have hsp := templates_spaced (spec := spec) x e _ ht hf hm (symbol_parts ht hc)
      obtain ⟨b, hs1, hs2⟩ := hsp.split
      cases hs2 with
      | part hfc hs3 =>
      obtain ⟨a, m1, r, k1, k2, rfl⟩ := printedAll_append k
      cases k2 with
      | part k3 k4 =>
      rename_i m2 s1 q1
      have j1 := printedAll_spaced templates_spaced k1 _ _ hs1
      have j2 : Joins false s1 (!endsClosed y c) := by
        have := printedAll_spaced templates_spaced (.part k3 (.nil _)) false _ (.part hfc (.nil _))
        rwa [List.append_nil] at this
      have j3 := printedAll_spaced templates_spaced k4 _ _ hs3
      obtain ⟨p, s, q, n1, n2, rfl, hpr, hws⟩ := ih hfc k3
      refine ⟨a ++ p, s, q ++ q1, n1, n2, by simp only [List.append_assoc], hpr, ?_⟩
      rw [(j1.apart (j2.append j3)), j2.apart j3, hws]
      have e1 : wordsOf (a ++ p) = wordsOf a ++ wordsOf p := wordsOf_append fun h => by
        have := j1.2.1 h.1
        cases this
      have e2 : wordsOf (q ++ q1) = wordsOf q ++ wordsOf q1 := wordsOf_append fun h => by
        have hq : endsW (p ++ s ++ q) = true := by
          have hne : q ≠ [] := fun h0 => by rw [h0] at h; cases h.1
          have h1 := h.1
          unfold endsW at h1 ⊢
          rw [List.getLast?_append, List.getLast?_eq_some_getLast hne]
          rw [List.getLast?_eq_some_getLast hne] at h1
          exact h1
        have := j3.1 (j2.2.1 hq)
        rw [this] at h
        cases h.2
      rw [e1, e2]
      simp only [List.append_assoc]

/-- **C82.** Whatever the formula, and whatever the part of it (at any depth, in math): the Typst text of the part stands in the Typst text of
the formula, and the words of the formula are those before the part, those of the part, and those after it.  So no name, letter or number
of one part is joined to one of another, which would change its meaning.  (Typst code that is copied must not end within a word.) -/
theorem C82_apart (fuel : Nat) (dflt : CommandSpec) (input : Text) (spec : Option CommandSpec) (macros : Bool) (tree : Elem) (out : Text)
    (hp : parse fuel ⟨spec.getD dflt, globPrefix⟩ macros input = .ok tree)
    (ht : ∀ d ∈ tree.descendants, d.kind = .itemTypstCode → ∀ c ∈ d.text.getLast?, inWord c = false)
    (hc : convertInner fuel dflt input .math spec macros = .ok out)
    (y : Place) (d : Elem) (hw : Within dflt (Place.top .math) tree y d) :
    ∃ before part after m m', out = before ++ part ++ after ∧ Printed dflt y d m part m' ∧
      wordsOf out = wordsOf before ++ wordsOf part ++ wordsOf after := by
  obtain ⟨h1, hwhole⟩ := parse_parts (Q := fun _ _ => True) trivial (fun _ _ _ _ _ _ => trivial) hp
  obtain ⟨m', hpr⟩ := (C61_document fuel dflt input .math spec macros tree hp out).1 hc
  have h2 := Forall_of_descendants _ tree ht
  have hfit : Fit tree := by
    unfold Fit
    clear hp hpr hc ht hw hwhole
    have hcode : ∀ d : Elem, (d.kind = .itemTypstCode → ∀ c ∈ d.text.getLast?, inWord c = false) → d.kind = .itemTypstCode → endsW d.text = false := by
      intro d h hk
      unfold endsW
      cases hl : d.text.getLast? with
      | none => rfl
      | some c => exact h hk c hl
    induction tree using Elem.ind with
    | ht k t => exact (Forall_token _ _ _).2 ⟨((Forall_token _ _ _).1 h1).1, hcode _ ((Forall_token _ _ _).1 h2)⟩
    | hn k cs ih =>
      obtain ⟨a1, a2⟩ := (Forall_node _ _ _).1 h1
      obtain ⟨b1, b2⟩ := (Forall_node _ _ _).1 h2
      exact (Forall_node _ _ _).2 ⟨⟨a1.1, hcode _ b1⟩, fun c hc => ih c hc (a2 c hc) (b2 c hc)⟩
  exact within_words hw hfit hpr

/-- A token that is not `\iftypst`. -/
def NoTypst (n : CommandName) (t : Text) : Prop := TokShape (.cmd n) t ∧ t ≠ t!"\\iftypst"

/-- C82 for every text that does not contain `\iftypst`, and every specification. -/
theorem C82_formula (fuel : Nat) (dflt : CommandSpec) (input : Text) (spec : Option CommandSpec) (macros : Bool) (tree : Elem) (out : Text)
    (hp : parse fuel ⟨spec.getD dflt, globPrefix⟩ macros input = .ok tree) (ht : ¬ t!"\\iftypst" <:+: input)
    (hc : convertInner fuel dflt input .math spec macros = .ok out)
    (y : Place) (d : Elem) (hw : Within dflt (Place.top .math) tree y d) :
    ∃ before part after m m', out = before ++ part ++ after ∧ Printed dflt y d m part m' ∧
      wordsOf out = wordsOf before ++ wordsOf part ++ wordsOf after := by
  refine C82_apart fuel dflt input spec macros tree out hp (fun e he hk => ?_) hc y d hw
  obtain ⟨h1, _⟩ := parse_parts (Q := NoTypst) ⟨rfl, by decide⟩
    (fun toks hto t htm n hn => ⟨hn ▸ tokensOf_shape hto t htm, fun h0 => ht (h0 ▸ span_infix hto t htm)⟩) hp
  have h2 := Forall_sub _ _ _ h1 he
  cases e with
  | token k t =>
    have := ((Forall_token _ _ _).1 h2).2
    have hk : k = .itemTypstCode := hk
    exact absurd hk this.2
  | node k cs =>
    have hk : k = .itemTypstCode := hk
    subst hk
    obtain ⟨t, hq⟩ := ((Forall_node _ _ _).1 h2).1.2
    exact absurd hq.1 hq.2

theorem wordsOf_single {t : Text} (h : ∀ c ∈ t, inWord c = true) (hne : t ≠ []) : wordsOf t = [t] := by
  induction t with
  | nil => exact absurd rfl hne
  | cons c t ih =>
    have hc := h c List.mem_cons_self
    cases t with
    | nil => rw [wordsOf_end hc rfl]; rfl
    | cons d t =>
      have := ih (fun e he => h e (List.mem_cons_of_mem _ he)) (by simp)
      rw [wordsOf_in (t := d :: t) hc (h d (List.mem_cons_of_mem _ List.mem_cons_self)), this]

/-- C82, symbols: the name written for a command without arguments, wherever it stands in the formula, is a word of the result. -/
theorem C82_symbol (fuel : Nat) (dflt : CommandSpec) (input : Text) (spec : Option CommandSpec) (macros : Bool) (tree : Elem) (out : Text)
    (hp : parse fuel ⟨spec.getD dflt, globPrefix⟩ macros input = .ok tree) (ht : ¬ t!"\\iftypst" <:+: input)
    (hc : convertInner fuel dflt input .math spec macros = .ok out)
    (y : Place) (d : Elem) (hw : Within dflt (Place.top .math) tree y d) (hy : y.mode = .math) (hk : d.kind = .itemCmd)
    (name : Text) (hn : bareName d = some name) (sh : CmdShape) (hs : dflt name = some (.cmd sh)) (ha : sh.args = .right .none)
    (hspecial : name ∉ [t!"item", t!"label", t!"includegraphics", t!"color", t!"textcolor", t!"colorbox"])
    (hword : ∀ c ∈ sh.alias.getD name, inWord c = true) (hne : sh.alias.getD name ≠ []) :
    sh.alias.getD name ∈ wordsOf out := by
  obtain ⟨b, p, a, m, m', _, hpr, hws⟩ := C82_formula fuel dflt input spec macros tree out hp ht hc y d hw
  have hp2 : p = sh.alias.getD name ++ t!" " := by
    cases d with
    | token k t =>
      have : bareName (.token k t) = none := rfl
      rw [this] at hn
      cases hn
    | node k cs =>
      have hk : k = .itemCmd := hk
      subst hk
      have htm : template dflt y (.node .itemCmd cs) = commandTemplate dflt y (.node .itemCmd cs) := rfl
      have hcol : ¬ isColorCommand name := by
        rintro (rfl | rfl | rfl) <;> exact hspecial (by decide)
      have hcmd : commandTemplate dflt y (.node .itemCmd cs) = .ok [.text (sh.alias.getD name), .text t!" "] := by
        unfold commandTemplate
        have hf : ∃ full, (Elem.node .itemCmd cs).cmdName = some full := by
          unfold bareName at hn
          cases hx : (Elem.node Kind.itemCmd cs).cmdName with
          | none => rw [hx] at hn; cases hn
          | some f => exact ⟨f, rfl⟩
        obtain ⟨full, hf⟩ := hf
        rw [hf, hn]
        dsimp only
        rw [if_neg (fun h => hspecial (by rw [h]; decide)), if_neg (fun h => hspecial (by rw [h]; decide)),
          if_neg (fun h => hspecial (by rw [h]; decide)), if_neg hcol]
        unfold normalTemplate
        rw [hs]
        dsimp only
        have hwn : writtenName y.mode name sh = sh.alias.getD name := by
          unfold writtenName
          rw [if_neg (by rw [hy]; simp), if_neg (by rw [hy]; simp)]
          cases sh.alias <;> rfl
        unfold argumentsTemplate
        rw [ha, hwn]
        rfl
      cases hpr with
      | mk h k =>
        rw [htm, hcmd] at h
        cases h
        cases k with
        | text t k => cases k with
          | text t k => cases k; simp
  have hw1 : wordsOf p = [sh.alias.getD name] := by
    rw [hp2, wordsOf_append, wordsOf_single hword hne]
    · rfl
    · rintro ⟨_, h⟩; cases h
  rw [hws, hw1]
  simp

/-- C82, letters and digits: in a formula each of them is a word of its own. -/
theorem C82_letters (fuel : Nat) (dflt : CommandSpec) (input : Text) (spec : Option CommandSpec) (macros : Bool) (tree : Elem) (out : Text)
    (hp : parse fuel ⟨spec.getD dflt, globPrefix⟩ macros input = .ok tree) (ht : ¬ t!"\\iftypst" <:+: input)
    (hc : convertInner fuel dflt input .math spec macros = .ok out)
    (y : Place) (w : Text) (hw : Within dflt (Place.top .math) tree y (.token .tokenWord w)) (hy : y.mode = .math) :
    ∃ u v, wordsOf out = u ++ (w.filter inWord).map (fun c => [c]) ++ v := by
  obtain ⟨b, p, a, m, m', _, hpr, hws⟩ := C82_formula fuel dflt input spec macros tree out hp ht hc y _ hw
  have hp2 : p = w.flatMap fun c => [c, ' '] := by
    cases hpr with
    | mk h k =>
      have : template dflt y (.token .tokenWord w) = .ok [.text (wordText y.mode w)] := rfl
      rw [this, hy] at h
      cases h
      cases k with
      | text t k => cases k; simp [wordText]
  refine ⟨wordsOf b, wordsOf a, ?_⟩
  rw [hws, hp2]
  congr 2
  clear hp2 hw hpr
  induction w with
  | nil => rfl
  | cons c w ih =>
    rw [List.flatMap_cons, wordsOf_append (by rintro ⟨h, _⟩; cases h), ih]
    by_cases hcw : inWord c = true
    · rw [List.filter_cons_of_pos hcw, List.map_cons]
      show wordsOf [c, ' '] ++ _ = _
      rw [wordsOf_end hcw rfl]
      rfl
    · rw [List.filter_cons_of_neg hcw]
      show wordsOf [c, ' '] ++ _ = _
      rw [wordsOf_out hcw]
      rfl

/-! ### Examples -/

theorem within_root {spec : CommandSpec} {cs : List Elem} {c : Elem} (hc : c ∈ cs) :
    Within spec (Place.top .math) (.node .scopeRoot cs) (Place.top .math) c :=
  .part rfl (ps := each (Place.top .math) cs) rfl (List.mem_map.2 ⟨c, hc, rfl⟩) (.here _ _)

/-- Names, letters and digits side by side, with scripts and arguments. -/
def closeText : Text := t!"\\alpha b\\beta_1\\gamma c12\\frac\\pi x\\sin{}y~z"

/-- The check of the next example. -/
def hasAlpha (r : Res Elem) : Bool :=
  match r with
  | .ok (.node .scopeRoot cs) => cs.any fun c => decide (c.kind = .itemCmd) && decide (bareName c = some t!"alpha")
  | _ => false

/-- C82 on such a text. -/
theorem C82_example :
    (∃ out, convertMath 200 defaultSpec closeText none = .ok out ∧
      wordsOf out = [t!"alpha", t!"b", t!"beta", t!"1", t!"gamma", t!"c", t!"1", t!"2", t!"frac", t!"pi", t!"x", t!"sin", t!"zws", t!"y", t!"space.nobreak", t!"z"]) ∧
    ∃ tree d, parse 200 ⟨defaultSpec, globPrefix⟩ true closeText = .ok tree ∧
      Within defaultSpec (Place.top .math) tree (Place.top .math) d ∧ d.kind = .itemCmd ∧ bareName d = some t!"alpha" := by
  constructor
  · obtain ⟨out, h⟩ := ok_of (r := convertMath 200 defaultSpec closeText none) (by decide +kernel)
    refine ⟨out, h, ?_⟩
    have : (convertMath 200 defaultSpec closeText none).toOption.map wordsOf =
        some [t!"alpha", t!"b", t!"beta", t!"1", t!"gamma", t!"c", t!"1", t!"2", t!"frac", t!"pi", t!"x", t!"sin", t!"zws", t!"y", t!"space.nobreak", t!"z"] := by
      decide +kernel
    rw [h] at this
    exact Option.some.inj this
  · have h : hasAlpha (parse 200 ⟨defaultSpec, globPrefix⟩ true closeText) = true := by decide +kernel
    unfold hasAlpha at h
    split at h
    · rename_i cs hcs
      obtain ⟨d, hd, hx⟩ := List.any_eq_true.1 h
      rw [Bool.and_eq_true] at hx
      exact ⟨_, d, hcs, within_root hd, of_decide_eq_true hx.1, of_decide_eq_true hx.2⟩
    · cases h

end Mitex
