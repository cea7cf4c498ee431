/-
C30-C34: what the trees of the parser look like.
-/
import Verif.Props.Parser

namespace Mitex

/-! ### Descendants -/

theorem descendants_go_iff (cs : List Elem) (x : Elem) :
    x ∈ Elem.descendants.go cs ↔ ∃ c ∈ cs, x ∈ c.descendants := by
  induction cs with
  | nil => simp [Elem.descendants.go]
  | cons c cs ih => simp [Elem.descendants.go, ih]

theorem descendants_node (k : Kind) (cs : List Elem) (x : Elem) :
    x ∈ (Elem.node k cs).descendants ↔ x = .node k cs ∨ ∃ c ∈ cs, x ∈ c.descendants := by
  rw [Elem.descendants, List.mem_cons, descendants_go_iff]

/-- Induction on trees. -/
theorem Elem.ind {P : Elem → Prop} (ht : ∀ k t, P (.token k t))
    (hn : ∀ k cs, (∀ c ∈ cs, P c) → P (.node k cs)) (e : Elem) : P e :=
  Elem.rec (motive_1 := P) (motive_2 := fun cs => ∀ c ∈ cs, P c) ht hn (fun _ h => (by cases h))
    (fun c cs h hs x hx => by
      rcases List.mem_cons.1 hx with e | hx
      · rw [e]; exact h
      · exact hs x hx) e

theorem Forall_sub (p : Elem → Prop) (e x : Elem) : e.Forall p → x ∈ e.descendants → x.Forall p := by
  induction e using Elem.ind with
  | ht k t =>
    intro h hx
    rw [Elem.descendants, List.mem_singleton] at hx
    rw [hx]; exact h
  | hn k cs ih =>
    intro h hx
    rw [descendants_node] at hx
    cases hx with
    | inl hx => rw [hx]; exact h
    | inr hx =>
      obtain ⟨c, hc, hx⟩ := hx
      exact ih c hc (((Forall_node p k cs).1 h).2 c hc) hx

theorem Forall_self {p : Elem → Prop} {e : Elem} (h : e.Forall p) : p e := by
  cases e with
  | token k t => exact (Forall_token p k t).1 h
  | node k cs => exact ((Forall_node p k cs).1 h).1

/-- The facts about a parsed tree. -/
theorem parse_tree {env : PEnv} {toks : List Tok} (hw : WordsOk toks) (hc : CmdsOk toks) {tree : Elem}
    (h : parseToks env toks = .ok tree) :
    ∃ cs, tree = .node .scopeRoot cs ∧ (∀ c ∈ cs, c.Forall (Shape env)) ∧ Reads toks [] (Elem.leaves.go cs) ∧
      (AllClosed cs ∨ ∃ pre e, cs = pre ++ [e] ∧ AllClosed pre ∧ OpenAtEnd e) := by
  have := parseToks_spec env hw hc
  rw [h] at this
  exact this

/-! ### C30 -/

/-- C30: no content token is lost, duplicated or reordered by the parser: the leaves of the tree, in order, are the
tokens, in order, but for whitespace, comments, and the commands delimiting block comments and typst code. -/
theorem C30_reads (env : PEnv) (toks : List Tok) (hw : WordsOk toks) (hc : CmdsOk toks) (tree : Elem)
    (h : parseToks env toks = .ok tree) : Reads toks [] tree.leaves := by
  obtain ⟨cs, rfl, _, hr, _⟩ := parse_tree hw hc h
  rw [leaves_node]
  exact hr

/-- A token that starts a block comment or typst code. -/
def startsVerbatim (t : Tok) : Bool :=
  match t.1 with
  | .cmd (.cif .ifFalse) | .cmd (.cif .ifTypst) => true
  | _ => false

theorem tokContent_cons (t : Tok) (ts : List Tok) :
    tokContent (t :: ts) = (if t.1.isTrivia then [] else t.2) ++ tokContent ts := by
  unfold tokContent
  cases h : t.1.isTrivia <;> simp [h]

theorem leafContent_cons (l : Kind × Text) (lv : List (Kind × Text)) :
    leafContent (l :: lv) = (if l.1 = .tokenLineBreak ∨ l.1 = .tokenWhiteSpace ∨ l.1 = .tokenComment then [] else l.2) ++
      leafContent lv := by
  unfold leafContent
  by_cases h1 : l.1 = .tokenLineBreak
  · simp [h1]
  by_cases h2 : l.1 = .tokenWhiteSpace
  · simp [h2]
  by_cases h3 : l.1 = .tokenComment
  · simp [h3]
  simp [h1, h2, h3]

theorem trivia_kind (t : Token) :
    (t.kind = .tokenLineBreak ∨ t.kind = .tokenWhiteSpace ∨ t.kind = .tokenComment) ↔ t.isTrivia = true := by
  cases t with
  | left b => cases b <;> simp [Token.kind, Token.isTrivia]
  | right b => cases b <;> simp [Token.kind, Token.isTrivia]
  | cmd c => cases c <;> simp [Token.kind, Token.isTrivia]
  | _ => simp [Token.kind, Token.isTrivia]

theorem Reads.content {ts rest : List Tok} {lv : List (Kind × Text)} (h : Reads ts rest lv)
    (hv : ∀ t ∈ ts, startsVerbatim t = false) : tokContent ts = leafContent lv ++ tokContent rest := by
  induction h with
  | done ts => simp [leafContent]
  | keep t h ih =>
    rw [tokContent_cons, leafContent_cons, ih fun t ht => hv t (List.mem_cons_of_mem _ ht)]
    simp only [trivia_kind, List.append_assoc]
  | sym x h ih =>
    rw [tokContent_cons, leafContent_cons, ih fun t ht => hv t (List.mem_cons_of_mem _ ht)]
    simp [Token.isTrivia]
  | trivia t ht h ih =>
    rw [tokContent_cons, ih fun t ht => hv t (List.mem_cons_of_mem _ ht), if_pos ht]
    rfl
  | char c hw h ih =>
    have := ih (by
      intro t ht
      rcases List.mem_cons.1 ht with rfl | ht
      · rfl
      · exact hv t (List.mem_cons_of_mem _ ht))
    rw [tokContent_cons] at this ⊢
    rw [leafContent_cons]
    simp [Token.isTrivia] at this ⊢
    exact this
  | cond t fi ht hb hf h ih =>
    have := hv t List.mem_cons_self
    unfold startsVerbatim at this
    rcases ht with ht | ht <;> rw [ht] at this <;> cases this
  | condOpen t ht hb =>
    have := hv t List.mem_cons_self
    unfold startsVerbatim at this
    rcases ht with ht | ht <;> rw [ht] at this <;> cases this

/-- C30: without block comments and typst code, the text of the tree without whitespace and comments is the text of the
tokens without whitespace and comments. -/
theorem C30_content (env : PEnv) (toks : List Tok) (hw : WordsOk toks) (hc : CmdsOk toks) (tree : Elem)
    (h : parseToks env toks = .ok tree) (hv : ∀ t ∈ toks, startsVerbatim t = false) :
    leafContent tree.leaves = tokContent toks := by
  have := (C30_reads env toks hw hc tree h).content hv
  rw [this]
  simp [tokContent]

/-- C30 for texts, without macro expansion. -/
theorem C30_text (env : PEnv) (s : Text) (toks : List Tok) (ht : tokensOf env.spec s = .ok toks) (fuel : Nat) (tree : Elem)
    (h : parse fuel env false s = .ok tree) : Reads toks [] tree.leaves := by
  have hd := (C28_delivered env.spec s toks ht).1
  unfold parse at h
  simp only [ht, ok_bind] at h
  exact C30_reads env toks hd.1 hd.2 tree h

/-! ### C31 -/

/-- C31: the result is one root node; no root node lies inside. -/
theorem C31_root (env : PEnv) (toks : List Tok) (hw : WordsOk toks) (hc : CmdsOk toks) (tree : Elem)
    (h : parseToks env toks = .ok tree) :
    ∃ cs, tree = .node .scopeRoot cs ∧ ∀ c ∈ cs, ∀ e ∈ c.descendants, e.kind ≠ .scopeRoot := by
  obtain ⟨cs, rfl, hs, _, _⟩ := parse_tree hw hc h
  refine ⟨cs, rfl, fun c hcm e he => ?_⟩
  have hf := Forall_self (Forall_sub _ c e (hs c hcm) he)
  intro hk
  cases e with
  | token k t => simp only [Elem.kind] at hk; subst hk; simp [Shape, leafKinds] at hf
  | node k cs => simp only [Elem.kind] at hk; subst hk; exact hf

/-- C31: every element of the tree below the root has the shape its kind promises (`Shape` in Spec/Tree.lean). -/
theorem C31_shapes (env : PEnv) (toks : List Tok) (hw : WordsOk toks) (hc : CmdsOk toks) (tree : Elem)
    (h : parseToks env toks = .ok tree) : ∀ e ∈ tree.descendants, e = tree ∨ Shape env e := by
  obtain ⟨cs, rfl, hs, _, _⟩ := parse_tree hw hc h
  intro e he
  rw [descendants_node] at he
  rcases he with rfl | ⟨c, hcm, he⟩
  · exact Or.inl rfl
  · exact Or.inr (Forall_self (Forall_sub _ c e (hs c hcm) he))

/-! ### C32 -/

theorem find_name {pre : List Elem} (hp : ∀ a ∈ pre, IsArg a) (name : Text) (post : List Elem) :
    (pre ++ .token .clauseCommandName name :: post).find? (fun c => !c.isNode && decide (c.kind = .clauseCommandName)) =
      some (.token .clauseCommandName name) := by
  induction pre with
  | nil => simp [Elem.isNode, Elem.kind]
  | cons a pre ih =>
    obtain ⟨cs, rfl⟩ := hp a List.mem_cons_self
    rw [List.cons_append, List.find?_cons]
    simp only [Elem.isNode, Bool.not_true, Bool.false_and]
    exact ih fun a ha => hp a (List.mem_cons_of_mem _ ha)

theorem ArgsOfKinds.isArg {ks : List ArgKind} {args : List Elem} (h : ArgsOfKinds ks args) : ∀ a ∈ args, IsArg a := by
  induction h with
  | nil => intro a ha; cases ha
  | cons h hs ih =>
    rename_i k ks a as
    intro x hx
    rcases List.mem_cons.1 hx with rfl | hx
    · cases k with
      | term => exact h
      | bracket => obtain ⟨cs, rfl⟩ := h; exact ⟨_, rfl⟩
      | paren => obtain ⟨cs, rfl⟩ := h; exact ⟨_, rfl⟩
    · exact ih x hx

theorem ArgsFit.isArg {g : GlobFn} {p : ArgPattern} {args : List Elem} (h : ArgsFit g p args) : ∀ a ∈ args, IsArg a := by
  cases p with
  | none => intro a ha; rw [show args = [] from h] at ha; cases ha
  | fixedLen n => exact h.2
  | rangeLen m n => exact h.2
  | greedy => exact h.2
  | glob re =>
    obtain ⟨ks, hk, _⟩ := h
    exact hk.isArg

/-- The pieces of a command node. -/
theorem CmdChildren.parts {env : PEnv} {cs : List Elem} (h : CmdChildren env cs) :
    ∃ pre name post, cs = pre ++ .token .clauseCommandName ('\\' :: name) :: post ∧ (∀ a ∈ pre, IsArg a) ∧
      (∀ a ∈ post, IsArg a) ∧
      match (getCmd env.spec name).map CmdShape.args with
      | none => pre = [] ∧ post = []
      | some (.right p) => pre = [] ∧ ArgsFit env.glob p post
      | some .left1 => pre.length ≤ 1 ∧ (∀ a ∈ pre, IsArg a) ∧ post = []
      | some .infixGreedy => pre.length ≤ 1 ∧ (∀ a ∈ pre, IsArg a) ∧ post.length = 1 ∧ ∀ a ∈ post, IsArg a := by
  obtain ⟨pre, name, post, e, hm⟩ := h
  refine ⟨pre, name, post, e, ?_, ?_, hm⟩
  · split at hm
    · rw [hm.1]; intro a ha; cases ha
    · rw [hm.1]; intro a ha; cases ha
    · exact hm.2.1
    · exact hm.2.1
  · split at hm
    · rw [hm.2]; intro a ha; cases ha
    · exact hm.2.isArg
    · rw [hm.2.2]; intro a ha; cases ha
    · exact hm.2.2.2

/-- Below the root, an element of a given kind that is not a leaf kind is a node with its shape. -/
theorem node_shape {env : PEnv} {toks : List Tok} (hw : WordsOk toks) (hc : CmdsOk toks) {tree : Elem}
    (h : parseToks env toks = .ok tree) {e : Elem} (he : e ∈ tree.descendants) {k : Kind} (hk : e.kind = k)
    (hl : k ∉ leafKinds) (hr : k ≠ .scopeRoot) : ∃ cs, e = .node k cs ∧ e.Forall (Shape env) := by
  obtain ⟨cs, rfl, hs, _, _⟩ := parse_tree hw hc h
  rw [descendants_node] at he
  rcases he with rfl | ⟨c, hcm, he⟩
  · exact absurd hk.symm hr
  · have hf := Forall_sub _ c e (hs c hcm) he
    cases e with
    | token k' t => exact absurd (hk ▸ Forall_self hf) hl
    | node k' cs' => simp only [Elem.kind] at hk; subst hk; exact ⟨cs', rfl, hf⟩

/-- C32: every command node of a parsed tree has a name, starting with a backslash. -/
theorem C32_command_name (env : PEnv) (toks : List Tok) (hw : WordsOk toks) (hc : CmdsOk toks) (tree : Elem)
    (h : parseToks env toks = .ok tree) (e : Elem) (he : e ∈ tree.descendants) (hk : e.kind = .itemCmd) :
    ∃ name, e.cmdName = some ('\\' :: name) := by
  obtain ⟨cs, rfl, hf⟩ := node_shape hw hc h he hk (by decide) (by decide)
  obtain ⟨pre, name, post, rfl, hp, _, _⟩ := CmdChildren.parts (Forall_self hf)
  refine ⟨name, ?_⟩
  unfold Elem.cmdName
  simp only [Elem.children]
  rw [find_name hp]
  rfl

theorem env_parts {env : PEnv} {cs : List Elem} (hf : (Elem.node .itemEnv cs).Forall (Shape env)) :
    ∃ name args rest, cs = .node .itemBegin (.token .tokenCommandSym name :: args) :: rest ∧ (∀ a ∈ args, IsArg a) ∧
      match (getEnv env.spec name).map EnvShape.args with
      | none => args = []
      | some p => ArgsFit env.glob p args := by
  obtain ⟨bcs, rest, rfl⟩ := Forall_self hf
  have hb : Shape env (.node .itemBegin bcs) := Forall_self (((Forall_node _ _ _).1 hf).2 _ List.mem_cons_self)
  obtain ⟨name, args, rfl, hm⟩ := hb
  refine ⟨name, args, rest, rfl, ?_, hm⟩
  split at hm
  · rw [hm]; intro a ha; cases ha
  · exact hm.isArg

/-- C32: every environment node of a parsed tree starts with a begin clause, whose first token is the name of the
environment. -/
theorem C32_environment_name (env : PEnv) (toks : List Tok) (hw : WordsOk toks) (hc : CmdsOk toks) (tree : Elem)
    (h : parseToks env toks = .ok tree) (e : Elem) (he : e ∈ tree.descendants) (hk : e.kind = .itemEnv) :
    ∃ b name rest, e = .node .itemEnv (b :: rest) ∧ b.kind = .itemBegin ∧ e.envBegin = some b ∧
      b.firstToken = some (.tokenCommandSym, name) ∧ e.envName = some name := by
  obtain ⟨cs, rfl, hf⟩ := node_shape hw hc h he hk (by decide) (by decide)
  obtain ⟨name, args, rest, rfl, _, _⟩ := env_parts hf
  exact ⟨_, name, rest, rfl, rfl, rfl, rfl, rfl⟩

/-! ### C33 -/

theorem arguments_of_args {k : Kind} {as : List Elem} (h : ∀ a ∈ as, IsArg a) :
    (Elem.node k as).arguments = as := by
  unfold Elem.arguments Elem.childNodes
  simp only [Elem.children]
  rw [List.filter_filter, List.filter_eq_self]
  intro a ha
  obtain ⟨cs, rfl⟩ := h a ha
  rfl

theorem arguments_skip {k : Kind} {pre post : List Elem} {k' : Kind} {t : Text} (hp : ∀ a ∈ pre, IsArg a)
    (hq : ∀ a ∈ post, IsArg a) : (Elem.node k (pre ++ .token k' t :: post)).arguments = pre ++ post := by
  have h1 := arguments_of_args (k := k) (as := pre ++ post) (by
    intro a ha
    rcases List.mem_append.1 ha with h | h
    · exact hp a h
    · exact hq a h)
  unfold Elem.arguments Elem.childNodes at h1 ⊢
  simp only [Elem.children, List.filter_append] at h1 ⊢
  rw [← h1]
  simp [Elem.isNode]

/-- The largest number of arguments a command of the given shape can have; `none` is "any number". -/
def maxArgs : Option ArgShape → Option Nat
  | none => some 0
  | some (.right .none) => some 0
  | some (.right (.fixedLen n)) => some n
  | some (.right (.rangeLen _ n)) => some n
  | some (.right .greedy) => some 1
  | some (.right (.glob _)) => none
  | some .left1 => some 1
  | some .infixGreedy => some 2

theorem ArgsFit.le {g : GlobFn} {p : ArgPattern} {args : List Elem} (h : ArgsFit g p args) {n : Nat}
    (hn : maxArgs (some (.right p)) = some n) : args.length ≤ n := by
  cases p with
  | none => rw [show args = [] from h]; exact Nat.zero_le _
  | fixedLen m => cases hn; exact h.1
  | rangeLen l m => cases hn; exact h.1
  | greedy => cases hn; exact Nat.le_of_eq h.1
  | glob re => cases hn

/-- C33: in a parsed tree, a command has at most as many argument nodes as the specification gives it; an unknown
command and a command without arguments have none. -/
theorem C33_command_arity (env : PEnv) (toks : List Tok) (hw : WordsOk toks) (hc : CmdsOk toks) (tree : Elem)
    (h : parseToks env toks = .ok tree) (e : Elem) (he : e ∈ tree.descendants) (hk : e.kind = .itemCmd) :
    ∃ name, e.cmdName = some ('\\' :: name) ∧
      ∀ n, maxArgs ((getCmd env.spec name).map CmdShape.args) = some n → e.arguments.length ≤ n := by
  obtain ⟨cs, rfl, hf⟩ := node_shape hw hc h he hk (by decide) (by decide)
  obtain ⟨pre, name, post, rfl, hp, hq, hm⟩ := CmdChildren.parts (Forall_self hf)
  refine ⟨name, ?_, fun n hn => ?_⟩
  · unfold Elem.cmdName
    simp only [Elem.children]
    rw [find_name hp]
    rfl
  · rw [arguments_skip hp hq, List.length_append]
    split at hm
    · rename_i e; rw [e] at hn; cases hn; rw [hm.1, hm.2]; exact Nat.le_refl _
    · rename_i p e
      rw [e] at hn
      rw [hm.1]
      simpa using hm.2.le hn
    · rename_i e; rw [e] at hn; cases hn; rw [hm.2.2]; simpa using hm.1
    · rename_i e; rw [e] at hn; cases hn; rw [hm.2.2.1]; have := hm.1; omega

/-- C33: likewise for environments. -/
theorem C33_environment_arity (env : PEnv) (toks : List Tok) (hw : WordsOk toks) (hc : CmdsOk toks) (tree : Elem)
    (h : parseToks env toks = .ok tree) (e : Elem) (he : e ∈ tree.descendants) (hk : e.kind = .itemEnv) :
    ∃ name, e.envName = some name ∧
      ∀ n, maxArgs ((getEnv env.spec name).map fun sh => .right sh.args) = some n → e.envArguments.length ≤ n := by
  obtain ⟨cs, rfl, hf⟩ := node_shape hw hc h he hk (by decide) (by decide)
  obtain ⟨name, args, rest, rfl, hp, hm⟩ := env_parts hf
  refine ⟨name, rfl, fun n hn => ?_⟩
  have e1 : (Elem.node .itemEnv (.node .itemBegin (.token .tokenCommandSym name :: args) :: rest)).envArguments = args := by
    show (Elem.node .itemBegin ([] ++ .token .tokenCommandSym name :: args)).arguments = args
    rw [arguments_skip (fun _ h => (by cases h)) hp]
    rfl
  rw [e1]
  cases hs : getEnv env.spec name with
  | none => rw [hs] at hm hn; cases hn; rw [show args = [] from hm]; exact Nat.le_refl _
  | some sh => rw [hs] at hm hn; exact ArgsFit.le (p := sh.args) hm hn

/-! ### C34 -/

/-- C34: an unclosed curly group lies at the very end of the tree (and the tree accounts for the whole input,
`C30_reads`): every curly group is closed by a brace or reaches the end of the input. -/
theorem C34_groups_closed (env : PEnv) (toks : List Tok) (hw : WordsOk toks) (hc : CmdsOk toks) (tree : Elem)
    (h : parseToks env toks = .ok tree) : OpenAtEnd tree := by
  obtain ⟨cs, rfl, _, _, hcl⟩ := parse_tree hw hc h
  rcases hcl with hcl | ⟨pre, e, rfl, hp, he⟩
  · exact .closed (Closed_node (fun h => (by cases h)) hcl)
  · exact .last _ hp he

/-- C34: a curly group starts with `{`; a formula starts with `$` or `$$`, or with `\(` or `\[`. -/
theorem C34_group_starts (env : PEnv) (toks : List Tok) (hw : WordsOk toks) (hc : CmdsOk toks) (tree : Elem)
    (h : parseToks env toks = .ok tree) (e : Elem) (he : e ∈ tree.descendants) :
    (e.kind = .itemCurly → ∃ t, e.firstToken = some (.tokenLBrace, t)) ∧
    (e.kind = .itemFormula → ∃ k t, e.firstToken = some (k, t) ∧ (k = .tokenDollar ∨ k = .tokenBeginMath)) := by
  constructor
  · intro hk
    obtain ⟨cs, rfl, hf⟩ := node_shape hw hc h he hk (by decide) (by decide)
    obtain ⟨x, es, rfl, k, t, hm, rfl⟩ := Forall_self hf
    exact ⟨t, by simp only [List.mem_singleton] at hm; subst hm; rfl⟩
  · intro hk
    obtain ⟨cs, rfl, hf⟩ := node_shape hw hc h he hk (by decide) (by decide)
    obtain ⟨x, es, rfl, k, t, hm, rfl⟩ := Forall_self hf
    exact ⟨k, t, rfl, by simpa using hm⟩

/-- The hypotheses of C30-C34 are met by texts with commands, environments, groups, formulas and an unclosed group;
the leaves of the tree are as expected. -/
example : ∃ toks tree, tokensOf defaultSpec "\\begin{matrix}\\frac 12 & $x$\\end{matrix}{a".toList = .ok toks ∧
    WordsOk toks ∧ CmdsOk toks ∧ parseToks ⟨defaultSpec, globPrefix⟩ toks = .ok tree ∧
    (tree.descendants.any fun e => decide (e.kind = .itemCmd)) = true ∧
    (tree.descendants.any fun e => decide (e.kind = .itemEnv)) = true ∧
    (tree.descendants.any fun e => decide (e.kind = .itemFormula)) = true ∧
    (tree.descendants.any fun e => decide (e.kind = .itemCurly)) = true := by
  obtain ⟨toks, ht⟩ := ok_of (r := tokensOf defaultSpec "\\begin{matrix}\\frac 12 & $x$\\end{matrix}{a".toList)
    (by decide +kernel)
  have hp : (match (tokensOf defaultSpec "\\begin{matrix}\\frac 12 & $x$\\end{matrix}{a".toList >>= fun toks =>
      parseToks ⟨defaultSpec, globPrefix⟩ toks) with
     | .ok tree => (tree.descendants.any fun e => decide (e.kind = .itemCmd)) &&
        (tree.descendants.any fun e => decide (e.kind = .itemEnv)) &&
        (tree.descendants.any fun e => decide (e.kind = .itemFormula)) &&
        (tree.descendants.any fun e => decide (e.kind = .itemCurly))
     | .error _ => false) = true := by decide +kernel
  rw [ht, ok_bind] at hp
  have hd := (C28_delivered _ _ _ ht).1
  cases ht' : parseToks ⟨defaultSpec, globPrefix⟩ toks with
  | error x => rw [ht'] at hp; cases hp
  | ok tree =>
    rw [ht'] at hp
    simp only [Bool.and_eq_true] at hp
    exact ⟨toks, tree, ht, hd.1, hd.2, ht', hp.1.1.1, hp.1.1.2, hp.1.2, hp.2⟩

end Mitex
