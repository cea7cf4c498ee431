/-
C62: the syntax tree is the one of the grammar (Spec/Grammar.lean).
-/
import Verif.Proof.GrammarFull
import Verif.Props.Parser
import Verif.Model.StandardSpec
import Verif.Model.Convert

namespace Mitex

open Grammar

/-- The grammar on rows, with the fuel of the parser. -/
def rowsOf (env : PEnv) (toks : List Tok) : Res (Row × List Tok) :=
  gItems (gContent env (tokSize toks + 1)) .root (enders .root) (tokSize toks + 1) ⟨[], some 0, none⟩ toks

theorem items_end {env : PEnv} {sc : Scope} {stop : List Token} {r : Row} {ts : List Tok} {r' : Row} {ts' : List Tok}
    (h : Items env sc stop r ts r' ts') : ∀ t, ts'.head? = some t → t.1 ∈ stop := by
  refine @Items.rec env (fun _ _ _ _ _ _ _ _ => True)
    (fun sc stop r ts r' ts' _ => ∀ t, ts'.head? = some t → t.1 ∈ stop) (fun _ _ _ _ _ _ _ _ => True)
    ?_ ?_ ?_ ?_ ?_ ?_ ?_ ?_ ?_ ?_ ?_ ?_ ?_ ?_ ?_ ?_ ?_ ?_ ?_ ?_ ?_ ?_ ?_ ?_ ?_ ?_ ?_ ?_ sc stop r ts r' ts' h
  all_goals first | (intros; trivial) | skip
  · intro _ _ _ _ h; exact h
  · intro _ _ _ _ _ _ _ _ _ _ _ _ _ _ h; exact h

/-- **C62.** Parsing a delivered token list gives exactly the tree of the grammar: the parser answers with a tree if and only if the
grammar has this tree for the tokens. -/
theorem C62_exact (env : PEnv) (toks : List Tok) (hw : WordsOk toks) (hc : CmdsOk toks) (e : Elem) :
    parseToks env toks = .ok e ↔ Grammar.Document env toks e := by
  have hp : parseToks env toks = (rowsOf env toks).map fun q => .node .scopeRoot q.1.items := parse_eq env toks
  constructor
  · intro h
    rw [hp] at h
    cases hr : rowsOf env toks with
    | error x => rw [hr] at h; cases h
    | ok q =>
      obtain ⟨r, ts⟩ := q
      rw [hr] at h
      cases h
      have hi : Items env .root [] ⟨[], some 0, none⟩ toks r ts := Sound.items (sound_content env _) _ hr
      have := items_end hi
      cases ts with
      | nil => exact ⟨r, hi, rfl⟩
      | cons t ts => exact absurd (this t rfl) (by simp)
  · rintro ⟨r, hi, rfl⟩
    obtain ⟨⟨n, hn⟩, -⟩ := found hi
    have hf : rowsOf env toks ≠ .error .fuel := by
      intro h
      rw [h] at hp
      exact C28_terminates env toks hw hc hp
    have h1 := lift_items (max n (tokSize toks + 1)) (max n (tokSize toks + 1)) hn (by omega) (by omega)
    have h2 := (content_mono env (tokSize toks + 1) (max n (tokSize toks + 1)) (by omega)).items .root [] (tokSize toks + 1)
      (max n (tokSize toks + 1)) (by omega) ⟨[], some 0, none⟩ toks hf
    have h3 : rowsOf env toks = .ok (r, []) := (h2.symm.trans h1)
    rw [hp, h3]
    rfl

/-- The grammar is not ambiguous: no token list (of any kind) has two trees. -/
theorem C62_unambiguous (env : PEnv) (toks : List Tok) (e e' : Elem) (h : Grammar.Document env toks e) (h' : Grammar.Document env toks e') :
    e = e' := by
  obtain ⟨r, hi, rfl⟩ := h
  obtain ⟨r', hi', rfl⟩ := h'
  obtain ⟨⟨n, hn⟩, -⟩ := found hi
  obtain ⟨⟨m, hm⟩, -⟩ := found hi'
  have h1 := lift_items (max n m) (max n m) hn (by omega) (by omega)
  have h2 := lift_items (max n m) (max n m) hm (by omega) (by omega)
  rw [h1] at h2
  cases h2
  rfl

/-- The parser panics exactly where the grammar has no tree. -/
theorem C62_panics (env : PEnv) (toks : List Tok) (hw : WordsOk toks) (hc : CmdsOk toks) :
    parseToks env toks = .error .panic ↔ ¬ ∃ e, Grammar.Document env toks e := by
  constructor
  · rintro h ⟨e, he⟩
    rw [(C62_exact env toks hw hc e).2 he] at h
    cases h
  · intro h
    cases hp : parseToks env toks with
    | ok e => exact absurd ⟨e, (C62_exact env toks hw hc e).1 hp⟩ h
    | error x => rw [(C29_only_panic env toks hw hc x hp).1]

/-- C62 for texts without macro expansion: the tree of a text is the tree the grammar gives for its tokens. -/
theorem C62_text (env : PEnv) (fuel : Nat) (s : Text) (e : Elem) :
    parse fuel env false s = .ok e ↔ ∃ toks, tokensOf env.spec s = .ok toks ∧ Grammar.Document env toks e := by
  unfold parse
  cases ht : tokensOf env.spec s with
  | error x =>
    constructor
    · intro h; cases h
    · rintro ⟨_, h, _⟩; cases h
  | ok toks =>
    have hd := (C28_delivered env.spec s toks ht).1
    have h := C62_exact env toks hd.1 hd.2 e
    constructor
    · intro hp; exact ⟨toks, rfl, h.1 hp⟩
    · rintro ⟨_, h1, hp⟩; cases h1; exact h.2 hp

/-- C62 for texts with macro expansion: the tree of a text is the tree the grammar gives for the tokens of the macro engine. -/
theorem C62_text_macro (env : PEnv) (fuel : Nat) (s : Text) (e : Elem) :
    parse fuel env true s = .ok e ↔
      ∃ toks outs, tokensOf env.spec s = .ok toks ∧ expandAll fuel toks = .ok outs ∧ Grammar.Document env outs e := by
  unfold parse
  cases ht : tokensOf env.spec s with
  | error x =>
    constructor
    · intro h; cases h
    · rintro ⟨_, _, h, _⟩; cases h
  | ok toks =>
    simp only [ok_bind, if_true]
    cases ho : expandAll fuel toks with
    | error x =>
      constructor
      · intro h; cases h
      · rintro ⟨_, _, h, h', _⟩; cases h; rw [ho] at h'; cases h'
    | ok outs =>
      have hd := (C28_delivered env.spec s toks ht).2 fuel outs ho
      have h := C62_exact env outs hd.1 hd.2 e
      constructor
      · intro hp; exact ⟨toks, outs, rfl, ho, h.1 hp⟩
      · rintro ⟨_, _, h1, h2, hp⟩
        cases h1
        rw [ho] at h2
        cases h2
        exact h.2 hp

/-- The grammar has a tree for `\frac{a}{b}_x` (with the default specification). -/
example : ∃ toks e, tokensOf defaultSpec t!"\\frac{a}{b}_x" = .ok toks ∧ Grammar.Document ⟨defaultSpec, globPrefix⟩ toks e := by
  obtain ⟨e, he⟩ := ok_of (r := parse 0 ⟨defaultSpec, globPrefix⟩ false t!"\\frac{a}{b}_x") (by decide +kernel)
  obtain ⟨toks, h1, h2⟩ := (C62_text _ 0 _ e).1 he
  exact ⟨toks, e, h1, h2⟩

/-- The grammar has no tree for `&_\limits` (with the default specification). -/
example : ∃ toks, tokensOf defaultSpec t!"&_\\limits" = .ok toks ∧ ¬ ∃ e, Grammar.Document ⟨defaultSpec, globPrefix⟩ toks e := by
  obtain ⟨toks, ht⟩ := ok_of (r := tokensOf defaultSpec t!"&_\\limits") (by decide +kernel)
  refine ⟨toks, ht, fun ⟨e, he⟩ => ?_⟩
  have h := (C62_text ⟨defaultSpec, globPrefix⟩ 0 t!"&_\\limits" e).2 ⟨toks, ht, he⟩
  have h' : (parse 0 ⟨defaultSpec, globPrefix⟩ false t!"&_\\limits").toBool = false := by decide +kernel
  rw [h] at h'
  cases h'

/-! ### Consequences -/

/-- A text with a script: for all words, the script of `w_cd…` is the character `c`, its base the whole text `w`; the rest of the word is a
text of its own. -/
theorem C62_script_char (env : PEnv) (w u : Text) (c : Char) (cs : Text) (hw : w ≠ []) (hc : cs ≠ []) :
    parseToks env [(.word, w), (.underscore, u), (.word, c :: cs)]
      = .ok (.node .scopeRoot [.node .itemAttachComponent [.node .clauseArgument [.node .itemText [.token .tokenWord w]],
          .token .tokenUnderscore u, .token .tokenWord [c]], .node .itemText [.token .tokenWord cs]]) := by
  refine (C62_exact env _ ?_ ?_ _).2 ?_
  · intro t ht
    simp only [List.mem_cons, List.not_mem_nil, or_false] at ht
    rcases ht with rfl | rfl | rfl
    · exact fun _ => hw
    · exact fun h => (by cases h)
    · exact fun _ => by simp
  · intro t ht n hn
    simp only [List.mem_cons, List.not_mem_nil, or_false] at ht
    rcases ht with rfl | rfl | rfl <;> cases hn
  · refine ⟨⟨_, some 0, some 1⟩, .more (by simp) (.text (run := []) (Or.inr ⟨rfl, rfl⟩) (by simp) (by rintro t ⟨⟩; rfl)) (.more (by simp)
      (.script (blanks := []) (Or.inl rfl) (kept := []) rfl (by simp) (by rintro t ⟨⟩; rfl) .char) ?_), rfl⟩
    unfold restOfWord
    rw [if_neg hc]
    exact .more (by simp) (.text (run := []) (ts := []) (Or.inr ⟨rfl, rfl⟩) (by simp) (by simp)) (.over (by simp))

example : ∃ tree, parseToks ⟨defaultSpec, globPrefix⟩ [(.word, t!"x"), (.underscore, t!"_"), (.word, t!"ab")] = .ok tree :=
  ⟨_, C62_script_char _ t!"x" t!"_" 'a' t!"b" (by decide) (by decide)⟩

theorem blank_cmd {n : CommandName} : isBlank (.cmd n) = false := by simp [isBlank]

/-- An item that is a command with arguments on its right. -/
theorem command_inv {env : PEnv} {sc : Scope} {one att : Bool} {r r' : Row} {n : CommandName} {name : Text} {p : ArgPattern} {ts ts' : List Tok}
    (hn : isCommand n = true) (h : commandArgs env.spec name = .right p) (h1 : p ≠ .none)
    (hi : Item env sc one r ((.cmd n, '\\' :: name) :: ts) att r' ts') : r'.last = none := by
  cases hi with
  | single h => exact absurd hn (by cases n <;> simp_all [single, isCommand])
  | misplaced h => exact absurd hn (by cases n <;> simp_all [Grammar.misplaced, isCommand])
  | text h => rcases h with h | h <;> simp_all
  | group h => exact absurd hn (by cases n <;> simp_all [grouping, isCommand])
  | environment => exact absurd hn (by simp [isCommand])
  | environmentArgs => exact absurd hn (by simp [isCommand])
  | delimited => exact absurd hn (by simp [isCommand])
  | block h => rcases h with h | h <;> cases h <;> exact absurd hn (by simp [isCommand])
  | blockOpen h => rcases h with h | h <;> cases h <;> exact absurd hn (by simp [isCommand])
  | symbol _ h' => rw [h] at h'; exact absurd (by cases h'; rfl) h1
  | command => rfl
  | greedy => rfl
  | «postfix» _ h' => exact nomatch h.symm.trans h'
  | «infix» _ h' => exact nomatch h.symm.trans h'
  | script hk => rcases hk with h | h <;> cases h

/-- After a script that is a command with arguments, the row has no last item (the program forgets the base): the next script has no base.
A defect of the program: `x_\frac{1}{2}^b` loses the base of `^b`, while `x_\alpha^b` keeps it. -/
theorem C62_script_forgets (env : PEnv) (sc : Scope) (one att : Bool) (r r' : Row) (k : Token) (x : Text) (n : CommandName) (name : Text)
    (p : ArgPattern) (ts ts' : List Tok) (hk : k = .underscore ∨ k = .caret) (hn : isCommand n = true)
    (h : commandArgs env.spec name = .right p) (h1 : p ≠ .none)
    (hi : Item env sc one r ((k, x) :: (.cmd n, '\\' :: name) :: ts) att r' ts') : r'.last = none := by
  obtain ⟨ts0, h0⟩ : ∃ ts0, ts0 = (Token.cmd n, '\\' :: name) :: ts := ⟨_, rfl⟩
  rw [← h0] at hi
  cases hi with
  | single h => rcases hk with rfl | rfl <;> cases h
  | misplaced h => rcases hk with rfl | rfl <;> cases h
  | text h => rcases hk with rfl | rfl <;> rcases h with h | h <;> simp_all
  | group h => rcases hk with rfl | rfl <;> cases h
  | script _ ho hb he hi =>
    rename_i blanks ts1 hk'
    cases blanks with
    | nil =>
      have h0 : ts1 = _ := h0
      subst h0
      have := command_inv hn h h1 hi
      unfold Row.leave
      rw [this]
      rfl
    | cons b bs =>
      have hb := hb b (by simp)
      cases h0
      rw [blank_cmd] at hb
      cases hb
  | _ => rcases hk with h | h <;> cases h

/-- A script in a row without a last item has no base: the new item starts with the script mark. -/
theorem C62_script_without_base (env : PEnv) (sc : Scope) (one att : Bool) (r r' : Row) (k : Token) (x : Text) (ts ts' : List Tok)
    (hk : k = .underscore ∨ k = .caret) (hl : r.last = none) (hi : Item env sc one r ((k, x) :: ts) att r' ts') :
    ∃ blanks ts0 att1 r1, (∀ t ∈ blanks, isBlank t.1 = true) ∧ ts = blanks ++ ts0 ∧
      Item env sc true (r.enter r.items.length (leafOf (k, x) :: blanks.map leafOf)) ts0 att1 r1 ts' ∧
      r'.items = r.items ++ [.node .itemAttachComponent r1.items] := by
  cases hi with
  | single h => rcases hk with rfl | rfl <;> cases h
  | misplaced h => rcases hk with rfl | rfl <;> cases h
  | text h => rcases hk with rfl | rfl <;> rcases h with h | h <;> simp_all
  | group h => rcases hk with rfl | rfl <;> cases h
  | script _ ho hb he hi =>
    rw [hl] at ho
    cases ho
    exact ⟨_, _, _, _, hb, rfl, hi, rfl⟩
  | _ => rcases hk with h | h <;> cases h

/-- After a command that takes all on its left and all that follows (`\over`), the row has no start any more … -/
theorem C62_infix_forgets (env : PEnv) (sc : Scope) (one att : Bool) (r r' : Row) (n : CommandName) (name : Text) (ts ts' : List Tok)
    (hn : isCommand n = true) (h : commandArgs env.spec name = .infixGreedy)
    (hi : Item env sc one r ((.cmd n, '\\' :: name) :: ts) att r' ts') :
    r'.first = none ∧ (r.first = none → ∃ r1, Items env sc (greedyEnders sc) ⟨[], some 0, none⟩ ts r1 ts' ∧
      r'.items = r.items ++ [.node .itemCmd [leafOf (.cmd n, '\\' :: name), .node .clauseArgument r1.items]]) := by
  cases hi with
  | single h => exact absurd hn (by cases n <;> simp_all [single, isCommand])
  | misplaced h => exact absurd hn (by cases n <;> simp_all [Grammar.misplaced, isCommand])
  | text h => rcases h with h | h <;> simp_all
  | group h => exact absurd hn (by cases n <;> simp_all [grouping, isCommand])
  | environment => exact absurd hn (by simp [isCommand])
  | environmentArgs => exact absurd hn (by simp [isCommand])
  | delimited => exact absurd hn (by simp [isCommand])
  | block h => rcases h with h | h <;> cases h <;> exact absurd hn (by simp [isCommand])
  | blockOpen h => rcases h with h | h <;> cases h <;> exact absurd hn (by simp [isCommand])
  | symbol _ h' => exact nomatch h.symm.trans h'
  | command _ h' => exact nomatch h.symm.trans h'
  | greedy _ h' => exact nomatch h.symm.trans h'
  | «postfix» _ h' => exact nomatch h.symm.trans h'
  | «infix» _ h' ho hi =>
    refine ⟨rfl, fun hf => ⟨_, hi, ?_⟩⟩
    rw [hf] at ho
    cases ho
    rfl
  | script hk => rcases hk with h | h <;> cases h

/-- The defects in the output: the base of the second script is lost after a command with arguments (not after one without); the second
`\over` of a row loses its left operand (not in groups); `\limits` as a script takes the base and the script mark. -/
theorem C62_lost_operands :
    convertMathNoMacro 50 defaultSpec t!"x_\\frac{1}{2}^b" none = .ok t!"x _(frac(1 ,2 ))zws^(b )" ∧
    convertMathNoMacro 50 defaultSpec t!"x_\\alpha^b" none = .ok t!"x _(alpha )^(b )" ∧
    convertMathNoMacro 50 defaultSpec t!"a \\over b & c \\over d" none = .ok t!"frac(a  , b  )& c  frac( d )" ∧
    convertMathNoMacro 50 defaultSpec t!"{a \\over b} & {c \\over d}" none = .ok t!"frac(a  , b ) & frac(c  , d )" ∧
    convertMathNoMacro 50 defaultSpec t!"x_\\limits" none = .ok t!"limits(x \\_)" :=
  ⟨by decide +kernel, by decide +kernel, by decide +kernel, by decide +kernel, by decide +kernel⟩

example : commandArgs defaultSpec t!"frac" = .right (.fixedLen 2) ∧ commandArgs defaultSpec t!"over" = .infixGreedy := by decide +kernel

end Mitex
