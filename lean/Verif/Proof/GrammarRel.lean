/-
The grammar on rows and the grammar as a relation.
-/
import Verif.Proof.GrammarMono

namespace Mitex
namespace Grammar

theorem bind_inv {α β : Type} {r : Res α} {f : α → Res β} {b : β} (h : (r >>= f) = .ok b) : ∃ a, r = .ok a ∧ f a = .ok b := by
  cases r with
  | error x => cases h
  | ok a => exact ⟨a, rfl, h⟩

theorem flagged_inv {f : Bool} {r : Res (Row × List Tok)} {att : Bool} {r' : Row} {ts' : List Tok} (h : flagged f r = .ok (att, r', ts')) :
    att = f ∧ r = .ok (r', ts') := by
  cases r with
  | error x => cases h
  | ok a => cases h; exact ⟨rfl, rfl⟩

/-! ### Block comments -/

theorem block_spec (ts : List Tok) : ∀ n,
    (∃ fi : Tok, ts = (gBlock ts n).1 ++ fi :: (gBlock ts n).2 ∧ fi.1 = .cmd .endIf ∧ ifDepth (gBlock ts n).1 n = some 0) ∨
      ((gBlock ts n).2 = [] ∧ (gBlock ts n).1 = ts ∧ ifDepth (gBlock ts n).1 n ≠ none) := by
  induction ts with
  | nil => intro n; exact Or.inr ⟨rfl, rfl, by simp [gBlock, ifDepth]⟩
  | cons t ts ih =>
    intro n
    obtain ⟨k, x⟩ := t
    have go : ∀ m, gBlock ((k, x) :: ts) n = ((k, x) :: (gBlock ts m).1, (gBlock ts m).2) →
        (∀ b, ifDepth ((k, x) :: b) n = ifDepth b m) →
        (∃ fi : Tok, (k, x) :: ts = (gBlock ((k, x) :: ts) n).1 ++ fi :: (gBlock ((k, x) :: ts) n).2 ∧ fi.1 = .cmd .endIf ∧
          ifDepth (gBlock ((k, x) :: ts) n).1 n = some 0) ∨
        ((gBlock ((k, x) :: ts) n).2 = [] ∧ (gBlock ((k, x) :: ts) n).1 = (k, x) :: ts ∧ ifDepth (gBlock ((k, x) :: ts) n).1 n ≠ none) := by
      intro m e hd
      rw [e, hd]
      rcases ih m with ⟨fi, h1, h2, h3⟩ | ⟨h1, h2, h3⟩
      · exact Or.inl ⟨fi, by rw [List.cons_append, ← h1], h2, h3⟩
      · exact Or.inr ⟨h1, by rw [h2], h3⟩
    cases k with
    | cmd c =>
      cases c with
      | cif i => exact go (n + 1) rfl fun b => by simp [ifDepth]
      | endIf =>
        by_cases hn : n = 0
        · subst hn
          exact Or.inl ⟨(.cmd .endIf, x), rfl, rfl, rfl⟩
        · refine go (n - 1) ?_ fun b => ?_
          · simp only [gBlock, if_neg hn]
          · simp only [ifDepth, if_neg hn]
      | _ => exact go n rfl fun b => rfl
    | _ => exact go n rfl fun b => rfl

theorem block_of_closed {body : List Tok} : ∀ {n : Nat} (x : Text) (ts : List Tok), ifDepth body n = some 0 →
    gBlock (body ++ (.cmd .endIf, x) :: ts) n = (body, ts) := by
  induction body with
  | nil =>
    intro n x ts h
    simp only [ifDepth, Option.some.injEq] at h
    subst h
    rfl
  | cons t body ih =>
    intro n x ts h
    obtain ⟨k, y⟩ := t
    have go : ∀ m, gBlock ((k, y) :: (body ++ (.cmd .endIf, x) :: ts)) n
          = ((k, y) :: (gBlock (body ++ (.cmd .endIf, x) :: ts) m).1, (gBlock (body ++ (.cmd .endIf, x) :: ts) m).2) →
        ifDepth body m = some 0 → gBlock ((k, y) :: body ++ (.cmd .endIf, x) :: ts) n = ((k, y) :: body, ts) := by
      intro m e hd
      rw [List.cons_append, e, ih x ts hd]
    cases k with
    | cmd c =>
      cases c with
      | cif i => exact go (n + 1) rfl h
      | endIf =>
        by_cases hn : n = 0
        · subst hn; simp [ifDepth] at h
        · refine go (n - 1) ?_ ?_
          · simp only [gBlock, if_neg hn]
          · simpa only [ifDepth, if_neg hn] using h
      | _ => exact go n rfl h
    | _ => exact go n rfl h

theorem block_of_open {body : List Tok} : ∀ {n : Nat}, ifDepth body n ≠ none → gBlock body n = (body, []) := by
  induction body with
  | nil => intro n _; rfl
  | cons t body ih =>
    intro n h
    obtain ⟨k, y⟩ := t
    have go : ∀ m, gBlock ((k, y) :: body) n = ((k, y) :: (gBlock body m).1, (gBlock body m).2) →
        ifDepth body m ≠ none → gBlock ((k, y) :: body) n = ((k, y) :: body, []) := by
      intro m e hd
      rw [e, ih hd]
    cases k with
    | cmd c =>
      cases c with
      | cif i => exact go (n + 1) rfl h
      | endIf =>
        by_cases hn : n = 0
        · subst hn; simp [ifDepth] at h
        · refine go (n - 1) ?_ ?_
          · simp only [gBlock, if_neg hn]
          · simpa only [ifDepth, if_neg hn] using h
      | _ => exact go n rfl h
    | _ => exact go n rfl h

/-! ### Soundness -/

/-- All results of the item parser are items. -/
def Sound (env : PEnv) (G : GFn) : Prop := ∀ {sc one r ts att r' ts'}, G sc one r ts = .ok (att, r', ts') → Item env sc one r ts att r' ts'

theorem mem_takeWhile {α : Type} {p : α → Bool} {l : List α} {a : α} (h : a ∈ l.takeWhile p) : p a = true := by
  have := List.all_takeWhile (p := p) (l := l)
  rw [List.all_eq_true] at this
  exact this a h

theorem Sound.items {env : PEnv} {G : GFn} (hG : Sound env G) {sc : Scope} {stop : List Token} (n : Nat) :
    ∀ {r ts r' ts'}, gItems G sc stop n r ts = .ok (r', ts') → Items env sc stop r ts r' ts' := by
  induction n with
  | zero => intro r ts r' ts' h; cases h
  | succ n ih =>
    intro r ts r' ts' h
    rw [gItems.eq_def] at h
    dsimp only at h
    cases ts with
    | nil => cases h; exact .over fun t h => (by cases h)
    | cons t ts =>
      dsimp only at h
      split at h
      · rename_i hs
        cases h
        refine .over fun u hu => ?_
        cases hu
        exact hs
      · rename_i hs
        obtain ⟨⟨att, r1, ts1⟩, h1, h2⟩ := bind_inv h
        exact .more hs (hG h1) (ih h2)

theorem Sound.group {env : PEnv} {G : GFn} (hG : Sound env G) {n : Nat} {sc : Scope} {close : Token} {kind : Kind} {t : Tok} {ts : List Tok}
    {e : Elem} {ts' : List Tok} (h : gGroup G n sc close kind t ts = .ok (e, ts')) :
    ∃ r1 ts1, Items env sc (enders sc) ⟨[leafOf t], some 1, none⟩ ts r1 ts1 ∧ e = .node kind (r1.items ++ (closing close ts1).1) ∧
      ts' = (closing close ts1).2 := by
  obtain ⟨⟨r1, ts1⟩, h1, h2⟩ := bind_inv h
  cases h2
  exact ⟨r1, ts1, hG.items n h1, rfl, rfl⟩

theorem notEnder_blank {k : Token} (sc : Scope) (h : isBlank k = true) : k ∉ greedyEnders sc := by
  cases k <;> first | (clear h; cases sc <;> simp [greedyEnders, enders]; done) | exact absurd h (by simp [isBlank])

theorem single_blank {k : Token} (h : isBlank k = true) : single k = some false := by
  cases k <;> first | rfl | cases h

theorem Sound.rest {env : PEnv} {G : GFn} (hG : Sound env G) {lim : Nat} {sc : Scope} (n : Nat) :
    ∀ {r ts r' ts'}, gRest G lim sc n r ts = .ok (r', ts') → Items env sc (greedyEnders sc) r ts r' ts' := by
  induction n with
  | zero => intro r ts r' ts' h; cases h
  | succ n ih =>
    intro r ts r' ts' h
    rw [gRest.eq_def] at h
    dsimp only at h
    cases ts with
    | nil => cases h; exact .over fun t h => (by cases h)
    | cons t ts =>
      dsimp only at h
      obtain ⟨k, x⟩ := t
      split at h
      · rename_i hb
        exact .more (notEnder_blank sc hb) (.single (single_blank hb)) (ih h)
      · split at h
        · rename_i hs
          cases h
          refine .over fun u hu => ?_
          cases hu
          exact hs
        · rename_i hs
          split at h
          · rename_i hk
            have hk : k = _ := hk
            subst hk
            obtain ⟨⟨e, ts1⟩, h1, h2⟩ := bind_inv h
            obtain ⟨r2, ts2, h3, h4, h5⟩ := hG.group h1
            subst h4 h5
            exact .more hs (.group rfl h3) (ih h2)
          · rename_i b hb hk
            have hk : k = _ := hk
            subst hk
            refine .more hs (.single (att := true) ?_) (ih h)
            cases b with
            | curly => exact absurd rfl hb
            | bracket => rfl
            | paren => rfl
          · obtain ⟨⟨att, r1, ts1⟩, h1, h2⟩ := bind_inv h
            exact .more hs (hG h1) (ih h2)

theorem Args.word {env : PEnv} {sc : Scope} {p : ArgPattern} {ts : List Tok} (cs : Text) : ∀ {ks : List ArgKind} {args : List Elem}
    {blanks ts' : List Tok}, Args env sc p (rob env.glob p ks cs).2.2 (restOfWord (rob env.glob p ks cs).2.1 ts) args blanks ts' → cs ≠ [] →
    Args env sc p ks ((.word, cs) :: ts) ((rob env.glob p ks cs).1 ++ args) blanks ts' := by
  induction cs with
  | nil => intro _ _ _ _ _ h; exact absurd rfl h
  | cons c cs ih =>
    intro ks args blanks ts' h _
    unfold rob at h ⊢
    by_cases ht : takes env.glob p ks .term = true
    · simp only [ht, if_true] at h ⊢
      refine .char ht ?_
      by_cases hc : cs = []
      · subst hc
        exact h
      · unfold restOfWord
        rw [if_neg hc]
        exact ih h hc
    · have ht : takes env.glob p ks .term = false := by simpa using ht
      simp only [ht, Bool.false_eq_true, if_false] at h ⊢
      exact h

theorem rob_stop {g : GlobFn} {p : ArgPattern} (cs : Text) : ∀ {ks : List ArgKind}, (rob g p ks cs).2.1 ≠ [] →
    takes g p (rob g p ks cs).2.2 .term = false := by
  induction cs with
  | nil => intro ks h; exact absurd rfl h
  | cons c cs ih =>
    intro ks h
    unfold rob at h ⊢
    by_cases ht : takes g p ks .term = true
    · simp only [ht, if_true] at h ⊢
      exact ih h
    · have ht : takes g p ks .term = false := by simpa using ht
      simp only [ht, Bool.false_eq_true, if_false] at h ⊢

theorem Sound.args {env : PEnv} {G : GFn} (hG : Sound env G) {lim : Nat} {sc : Scope} {p : ArgPattern} (n : Nat) :
    ∀ {ks ts args blanks ts'}, gArgs env.glob G lim sc p n ks ts = .ok (args, blanks, ts') → Args env sc p ks ts args blanks ts' := by
  induction n with
  | zero => intro ks ts args blanks ts' h; cases h
  | succ n ih =>
    intro ks ts args blanks ts' h
    cases ts with
    | nil => cases h; exact .over fun t h => (by cases h)
    | cons t ts =>
      obtain ⟨k, x⟩ := t
      by_cases hw : k = .word
      · subst hw
        rw [gArgs_word] at h
        by_cases hx : x = []
        · subst hx
          rw [if_neg (by simp [rob])] at h
          obtain ⟨⟨a1, b1, t1⟩, h1, h2⟩ := bind_inv h
          cases h2
          exact ih h1
        · split at h
          · rename_i hr
            cases h
            have := Args.word (env := env) (sc := sc) (p := p) (ts := ts) x (ks := ks) (args := []) (blanks := [])
              (ts' := (.word, (rob env.glob p ks x).2.1) :: ts) ?_ hx
            · rw [List.append_nil] at this
              exact this
            · unfold restOfWord
              rw [if_neg hr]
              refine .over fun t ht => ?_
              cases ht
              refine ⟨rfl, fun e => hr (congrArg Prod.snd e), ?_⟩
              unfold argsOver
              rw [show argKindOf Token.word = .term from rfl, rob_stop x hr]
              simp
          · rename_i hr
            have hr : (rob env.glob p ks x).2.1 = [] := by simpa using hr
            obtain ⟨⟨a1, b1, t1⟩, h1, h2⟩ := bind_inv h
            cases h2
            refine Args.word x ?_ hx
            unfold restOfWord
            rw [if_pos hr]
            exact ih h1
      · have h0 := h
        rw [gArgs.eq_def] at h
        dsimp only at h
        split at h
        · rename_i hb
          obtain ⟨⟨a1, b1, t1⟩, h1, h2⟩ := bind_inv h
          cases h2
          exact .blank hb (ih h1)
        · rename_i hb
          have hb : isBlank k = false := by simpa using hb
          split at h
          · rename_i hs
            cases h
            refine .over fun t ht => ?_
            cases ht
            refine ⟨hb, fun e => hw (congrArg Prod.fst e), ?_⟩
            unfold argsOver
            simp only [hs, true_or, decide_true, Bool.true_or]
          · rename_i hs
            by_cases hlf : ∃ b, k = .left b
            · obtain ⟨b, rfl⟩ := hlf
              dsimp only at h
              split at h
              · rename_i htk
                obtain ⟨⟨e1, t1⟩, h1, h2⟩ := bind_inv h
                obtain ⟨⟨a2, b2, t2⟩, h3, h4⟩ := bind_inv h2
                cases h4
                split at h1
                · rename_i hsg
                  obtain ⟨r3, ts3, h5, h6, h7⟩ := hG.group h1
                  subst h6 h7
                  exact .group hsg htk h5 (ih h3)
                · rename_i hsg
                  cases h1
                  exact .bracket (by simpa using hsg) htk (ih h3)
              · rename_i htk
                cases h
                refine .over fun t ht => ?_
                cases ht
                refine ⟨hb, fun e => hw (congrArg Prod.fst e), ?_⟩
                unfold argsOver
                rw [show argKindOf (Token.left b) = (argGrouping b).1 from rfl]
                simp [htk]
            · have hnl : ∀ b, k ≠ .left b := fun b e => hlf ⟨b, e⟩
              have hak : argKindOf k = .term := by
                cases k <;> first | rfl | exact absurd rfl (hnl _)
              have h' := gArgs_other (g := env.glob) (G := G) (lim := lim) (n := n) (sc := sc) (p := p) (ks := ks) (k := k) (x := x) (ts := ts)
                hb hs hw hnl
              rw [h0] at h'
              replace h := h'.symm
              split at h
              · rename_i hst
                cases h
                refine .over fun t ht => ?_
                cases ht
                refine ⟨hb, fun e => hw (congrArg Prod.fst e), ?_⟩
                unfold argsOver
                simp only [hst, or_true, decide_true, Bool.true_or]
              · rename_i hst
                split at h
                · rename_i htk
                  obtain ⟨⟨att, r1, t1⟩, h1, h2⟩ := bind_inv h
                  obtain ⟨⟨a2, b2, t2⟩, h3, h4⟩ := bind_inv h2
                  cases h4
                  refine .item ⟨hw, hnl, hb⟩ ?_ (hG h1) (ih h3)
                  unfold argsOver
                  rw [hak, htk]
                  simp only [hs, hst, or_self, decide_false, Bool.not_true, Bool.or_false]
                · rename_i htk
                  cases h
                  refine .over fun t ht => ?_
                  cases ht
                  refine ⟨hb, fun e => hw (congrArg Prod.fst e), ?_⟩
                  unfold argsOver
                  rw [hak]
                  simp [htk]

theorem strip_ok {x name : Text} (h : stripBackslash x = .ok name) : x = '\\' :: name := by
  unfold stripBackslash at h
  split at h
  · cases h; rfl
  · cases h

theorem Sound.command {env : PEnv} {G : GFn} (hG : Sound env G) {n : Nat} {sc : Scope} {one : Bool} {r : Row} {c : CommandName} {x : Text}
    {ts : List Tok} {att : Bool} {r' : Row} {ts' : List Tok} (hc : isCommand c = true)
    (h : gCommand env G n sc r (.cmd c, x) ts = .ok (att, r', ts')) : Item env sc one r ((.cmd c, x) :: ts) att r' ts' := by
  unfold gCommand gName at h
  obtain ⟨name, h1, h2⟩ := bind_inv h
  have hx := strip_ok h1
  dsimp only at hx
  subst hx
  cases ha : commandArgs env.spec name with
  | left1 =>
    rw [ha] at h2
    dsimp only at h2
    cases ho : r.operand (r.last.or r.first) with
    | none => rw [ho] at h2; cases h2
    | some o =>
      rw [ho] at h2
      cases h2
      exact .postfix hc ha ho
  | infixGreedy =>
    rw [ha] at h2
    dsimp only at h2
    cases ho : r.operand r.first with
    | none => rw [ho] at h2; cases h2
    | some o =>
      rw [ho] at h2
      obtain ⟨⟨r1, t1⟩, h3, h4⟩ := bind_inv h2
      cases h4
      exact .infix hc ha ho (hG.rest n h3)
  | right p =>
    rw [ha] at h2
    have rgt : p ≠ .none → p ≠ .greedy → ∀ h2 : (gArgs env.glob G n sc p n [] ts >>= fun q =>
        (.ok (true, { r.add (.node .itemCmd (leafOf (.cmd c, '\\' :: name) :: q.1) :: q.2.1.map leafOf) with last := none }, q.2.2)
          : Res (Bool × Row × List Tok))) = .ok (att, r', ts'), Item env sc one r ((.cmd c, '\\' :: name) :: ts) att r' ts' := by
      intro hn hg h2
      obtain ⟨⟨a1, b1, t1⟩, h3, h4⟩ := bind_inv h2
      cases h4
      exact .command hc ha hn hg (hG.args n h3)
    cases p with
    | none => cases h2; exact .symbol hc ha
    | greedy =>
      obtain ⟨⟨r1, t1⟩, h3, h4⟩ := bind_inv h2
      cases h4
      exact .greedy hc ha (hG.rest n h3)
    | fixedLen m => exact rgt (by simp) (by simp) h2
    | rangeLen a b => exact rgt (by simp) (by simp) h2
    | glob re => exact rgt (by simp) (by simp) h2

theorem Sound.environment {env : PEnv} {G : GFn} (hG : Sound env G) {n : Nat} {sc : Scope} {one : Bool} {r : Row} {x : Text}
    {ts : List Tok} {r' : Row} {ts' : List Tok} (h : gEnvironment env G n sc r (.cmd .beginEnv, x) ts = .ok (r', ts')) :
    Item env sc one r ((.cmd .beginEnv, x) :: ts) true r' ts' := by
  unfold gEnvironment at h
  dsimp only at h
  cases ha : environmentArgs env.spec x with
  | none =>
    rw [ha] at h
    obtain ⟨⟨r1, t1⟩, h1, h2⟩ := bind_inv h
    cases h2
    exact .environment ha (hG.items n h1)
  | some p =>
    rw [ha] at h
    dsimp only at h
    split at h
    · cases h
    · rename_i hp
      obtain ⟨⟨a1, b1, t1⟩, h1, h2⟩ := bind_inv h
      obtain ⟨⟨r2, t2⟩, h3, h4⟩ := bind_inv h2
      cases h4
      exact .environmentArgs ha hp (hG.args n h1) (hG.items n h3)

theorem Sound.body {env : PEnv} {G : GFn} (hG : Sound env G) (n : Nat) : Sound env (gBody env G n) := by
  intro sc one r ts att r' ts' h0
  unfold gBody at h0
  cases ts with
  | nil => cases h0; exact .over
  | cons t ts =>
    obtain ⟨k, x⟩ := t
    dsimp only at h0
    revert h0
    have sgl : ∀ f, single k = some f → ∀ h : (.ok (f, r.add [leafOf (k, x)], ts) : Res (Bool × Row × List Tok)) = .ok (att, r', ts'),
        Item env sc one r ((k, x) :: ts) att r' ts' := by
      intro f hs h; cases h; exact .single hs
    have err : misplaced k = true → ∀ h : (.ok (true, r.add [.node .tokenError [leafOf (k, x)]], ts) : Res (Bool × Row × List Tok))
        = .ok (att, r', ts'), Item env sc one r ((k, x) :: ts) att r' ts' := by
      intro hs h; cases h; exact .misplaced hs
    have txt : (k = .comma ∨ k = .word ∧ one = false) → ∀ h : (.ok (true, gText r (k, x) ts) : Res (Bool × Row × List Tok))
        = .ok (att, r', ts'), Item env sc one r ((k, x) :: ts) att r' ts' := by
      intro hk h
      cases h
      have := Item.text (env := env) (sc := sc) (one := one) (r := r) (k := k) (x := x) (run := ts.takeWhile fun t => isTextPart t.1)
        (ts := ts.dropWhile fun t => isTextPart t.1) hk (fun t ht => by
          exact mem_takeWhile (p := fun t : Tok => isTextPart t.1) ht) (fun t ht => by
          have := List.head?_dropWhile_not (p := fun t : Tok => isTextPart t.1) ts
          rw [ht] at this
          simpa using this)
      rw [List.takeWhile_append_dropWhile] at this
      exact this
    have grp : ∀ f sc' close kind, grouping k = some (sc', close, kind, f) →
        ∀ h : (gGroup G n sc' close kind (k, x) ts >>= fun q => (.ok (f, r.add [q.1], q.2) : Res (Bool × Row × List Tok)))
          = .ok (att, r', ts'), Item env sc one r ((k, x) :: ts) att r' ts' := by
      intro f sc' close kind hg h
      obtain ⟨⟨e, t1⟩, h1, h2⟩ := bind_inv h
      obtain ⟨r2, ts2, h3, h4, h5⟩ := hG.group h1
      cases h2
      subst h4 h5
      exact .group hg h3
    have blk : ∀ i kind, k = .cmd (.cif i) → ((i, kind) = (IfName.ifFalse, Kind.itemBlockComment) ∨ (i, kind) = (.ifTypst, .itemTypstCode)) →
        ∀ h : (.ok (true, r.add [.node kind ((gBlock ts 0).1.map leafOf)], (gBlock ts 0).2) : Res (Bool × Row × List Tok))
          = .ok (att, r', ts'), Item env sc one r ((k, x) :: ts) att r' ts' := by
      intro i kind hk hi h
      subst hk
      cases h
      rcases block_spec ts 0 with ⟨fi, h1, h2, h3⟩ | ⟨h1, h2, h3⟩
      · obtain ⟨fk, fx⟩ := fi
        dsimp only at h2
        subst h2
        have := Item.block (env := env) (sc := sc) (one := one) (r := r) (x := x) (y := fx) (body := (gBlock ts 0).1) (ts := (gBlock ts 0).2) hi h3
        rw [← h1] at this
        exact this
      · have := Item.blockOpen (env := env) (sc := sc) (one := one) (r := r) (x := x) (body := (gBlock ts 0).1) hi h3
        rw [h2] at this
        rw [h1, h2]
        exact this
    have scr : k = .underscore ∨ k = .caret → ∀ h : flagged false (gScript G sc r (k, x) ts) = .ok (att, r', ts'),
        Item env sc one r ((k, x) :: ts) att r' ts' := by
      intro hk h
      obtain ⟨e, h'⟩ := flagged_inv h
      subst e
      unfold gScript at h'
      cases ho : r.operand r.last with
      | none => rw [ho] at h'; cases h'
      | some o =>
        rw [ho] at h'
        obtain ⟨⟨a1, r1, t1⟩, h1, h2⟩ := bind_inv h'
        cases h2
        have := Item.script (one := one) (blanks := ts.takeWhile fun t => isBlank t.1) hk ho (fun t ht => by
          exact mem_takeWhile (p := fun t : Tok => isBlank t.1) ht) (fun t ht => by
          have := List.head?_dropWhile_not (p := fun t : Tok => isBlank t.1) ts
          rw [ht] at this
          simpa using this) (hG h1)
        rw [List.takeWhile_append_dropWhile] at this
        exact this
    intro h0
    cases k with
    | ampersand => exact sgl false rfl h0
    | newLine => exact sgl false rfl h0
    | lineBreak => exact sgl false rfl h0
    | whitespace => exact sgl false rfl h0
    | lineComment => exact sgl false rfl h0
    | hash => exact sgl false rfl h0
    | asterisk => exact sgl false rfl h0
    | atSign => exact sgl false rfl h0
    | error => exact sgl false rfl h0
    | apostrophe =>
      obtain ⟨rfl, h⟩ := flagged_inv h0
      unfold gPrime at h
      split at h
      · rename_i hl
        cases h
        exact .apostrophe hl
      · rename_i hl
        cases ho : r.operand r.last with
        | none => rw [ho] at h; cases h
        | some o =>
          rw [ho] at h
          cases h
          exact .prime hl ho
    | underscore => exact scr (Or.inl rfl) h0
    | caret => exact scr (Or.inr rfl) h0
    | left bk =>
      cases bk with
      | curly => exact grp true .curlyItem (.right .curly) .itemCurly rfl h0
      | bracket => exact sgl true rfl h0
      | paren => exact sgl true rfl h0
    | right bk =>
      cases bk with
      | curly => exact err rfl h0
      | bracket => exact sgl true rfl h0
      | paren => exact sgl true rfl h0
    | macroArg i => exact err rfl h0
    | tilde => exact sgl true rfl h0
    | slash => exact sgl true rfl h0
    | ditto => exact sgl true rfl h0
    | semicolon => exact sgl true rfl h0
    | comma => exact txt (Or.inl rfl) h0
    | dollar => exact grp false .dollarFormula .dollar .itemFormula rfl h0
    | word =>
      cases one with
      | false => exact txt (Or.inr ⟨rfl, rfl⟩) h0
      | true =>
        cases x with
        | nil => cases h0; exact .noChar
        | cons c cs => cases h0; exact .char
    | cmd name =>
      cases name with
      | generic => exact hG.command rfl h0
      | beginEnv =>
        obtain ⟨rfl, h⟩ := flagged_inv h0
        exact hG.environment h
      | beginMath => exact grp false .cmdFormula (.cmd .endMath) .itemFormula rfl h0
      | cif i =>
        cases i with
        | ifFalse => exact blk _ _ rfl (Or.inl rfl) h0
        | ifTypst => exact blk _ _ rfl (Or.inr rfl) h0
        | _ => exact hG.command rfl h0
      | celse => exact hG.command rfl h0
      | endIf => exact hG.command rfl h0
      | left =>
        obtain ⟨rfl, h⟩ := flagged_inv h0
        unfold gDelimited at h
        obtain ⟨⟨r1, t1⟩, h1, h2⟩ := bind_inv h
        cases h2
        exact .delimited (hG.items n h1)
      | right => exact hG.command rfl h0
      | errorBeginEnv => exact sgl true rfl h0
      | errorEndEnv => exact sgl true rfl h0
      | endEnv => exact err rfl h0
      | endMath => exact err rfl h0

theorem sound_content (env : PEnv) : ∀ n, Sound env (gContent env n)
  | 0 => fun h => (by cases h)
  | n + 1 => Sound.body (sound_content env n) n

end Grammar
end Mitex
