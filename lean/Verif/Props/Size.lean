/-
C74: the size of the output.
-/
import Verif.Proof.SizeAll
import Verif.Props.Program
import Verif.Props.Nesting
import Verif.Props.Document

namespace Mitex

/-! ### Numbers -/

theorem natDigits_mono (f g i n : Nat) (hi : i < f) (hn : n < g) (h : i ≤ n) : (natDigits f i).length ≤ (natDigits g n).length := by
  induction f generalizing g i n with
  | zero => omega
  | succ f ih =>
    cases g with
    | zero => omega
    | succ g =>
      rw [natDigits, natDigits]
      by_cases h1 : i < 10
      · rw [if_pos h1]
        split <;> simp
      · rw [if_neg h1, if_neg (by omega)]
        have := ih g (i / 10) (n / 10) (by omega) (by omega) (by omega)
        simp only [List.length_append, List.length_singleton]
        omega

theorem decimal_mono {i n : Nat} (h : i ≤ n) : (decimal i).length ≤ (decimal n).length := by
  rw [← natText_eq, ← natText_eq]
  exact natDigits_mono _ _ _ _ (by omega) (by omega) h

theorem natDigits_le (f n : Nat) : (natDigits f n).length ≤ n + 1 := by
  induction f generalizing n with
  | zero => exact Nat.zero_le _
  | succ f ih =>
    rw [natDigits]
    split
    · simp
    · have := ih (n / 10)
      simp only [List.length_append, List.length_singleton]
      omega

theorem decimal_le (n : Nat) : (decimal n).length ≤ n + 1 := by
  rw [← natText_eq]
  exact natDigits_le _ _

/-! ### The bound -/

/-- **C74.** A document is printed within a bound that is linear in its size, but for the depth of lists and the length of numbers. -/
theorem C74_tree (spec : CommandSpec) (A : Nat) (hn : NamesWithin spec A) (tree : Elem) (m : Mode) (out : Text) (m' : Mem)
    (h : Printed spec (Place.top m) tree ⟨none, true⟩ out m') : out.length ≤ sizeBound A (listDepth spec tree) tree.weight := by
  let R : Rates := ⟨spec, A, 2 * listDepth spec tree, (decimal tree.weight).length, tree.weight,
    A + 2 * listDepth spec tree + 2 * (decimal tree.weight).length + 100, hn, fun i hi => decimal_mono hi, Nat.le_refl _⟩
  have h1 := printed_length (R := R) h ⟨Nat.le_refl _, by show 2 * (0 + listDepth spec tree) ≤ 2 * listDepth spec tree; omega⟩
  have h2 : pending (⟨none, true⟩ : Mem) = 0 := rfl
  show _ ≤ R.K * tree.weight
  omega

theorem sizeBound_mono (A l : Nat) {a b : Nat} (h : a ≤ b) : sizeBound A l a ≤ sizeBound A l b := by
  unfold sizeBound
  have := decimal_mono h
  exact Nat.mul_le_mul (by omega) h

theorem toksWeight_size (ts : List Tok) : toksWeight ts = 6 * tokensSize ts := by
  induction ts with
  | nil => rfl
  | cons t ts ih =>
    rw [toksWeight_cons, ih]
    simp only [tokWeight, tokensSize, List.map_cons, List.sum_cons]
    omega

/-- The tokens of a text are not larger than the text. -/
theorem tokensSize_text {spec : CommandSpec} {s : Text} {toks : List Tok} (h : tokensOf spec s = .ok toks) : tokensSize toks ≤ 2 * s.length := by
  obtain ⟨spans, h1, h2, h3⟩ := tokensOf_spec h
  rw [← h2]
  have hall : ∀ (i : Nat) (t : Tok) (sp : Text), toks[i]? = some t → spans[i]? = some sp → 1 + t.2.length ≤ 2 * sp.length := by
    intro i t sp ht hs
    obtain ⟨g1, g2, _⟩ := h3 i t.1 t.2 sp ht hs
    have hne : 1 ≤ sp.length := List.length_pos_iff.2 g1
    have : t.2.length ≤ sp.length := by
      unfold SpanOf at g2
      split at g2
      · obtain ⟨a, b, e⟩ := g2; rw [e]; simp; omega
      · obtain ⟨a, b, e⟩ := g2; rw [e]; simp; omega
      · rw [g2]; exact Nat.le_refl _
    omega
  clear h h2 h3
  unfold tokensSize
  induction toks generalizing spans with
  | nil => exact Nat.zero_le _
  | cons t toks ih =>
    cases spans with
    | nil => cases h1
    | cons sp spans =>
      have e1 := ih spans (by simpa using h1) fun i t sp ht hs => hall (i + 1) t sp ht hs
      have e2 := hall 0 t sp rfl rfl
      simp only [List.map_cons, List.sum_cons, List.flatten_cons, List.length_append]
      omega

/-- **C74.** Without macros, the output of a conversion is bounded by the length of the input. -/
theorem C74_no_macro (fuel : Nat) (dflt : CommandSpec) (A : Nat) (hn : NamesWithin dflt A) (input : Text) (m : Mode) (spec : Option CommandSpec) (out : Text)
    (h : convertInner fuel dflt input m spec false = .ok out) :
    ∃ tree, parse fuel ⟨spec.getD dflt, globPrefix⟩ false input = .ok tree ∧ out.length ≤ sizeBound A (listDepth dflt tree) (12 * input.length + 1) := by
  cases hp : parse fuel ⟨spec.getD dflt, globPrefix⟩ false input with
  | error x => unfold convertInner at h; rw [hp] at h; cases h
  | ok tree =>
    refine ⟨tree, rfl, ?_⟩
    obtain ⟨m', hpr⟩ := (C61_document fuel dflt input m spec false tree hp out).1 h
    obtain ⟨toks, ht, hd⟩ := (C62_text _ _ _ _).1 hp
    refine Nat.le_trans (C74_tree dflt A hn tree m out m' hpr) (sizeBound_mono _ _ ?_)
    have h1 := document_weight hd
    have h2 := tokensSize_text ht
    rw [toksWeight_size] at h1
    omega

/-- **C74.** With macros, it is bounded by the size of the expansion (which can be exponential in the length of the input, C71). -/
theorem C74_macro (fuel : Nat) (dflt : CommandSpec) (A : Nat) (hn : NamesWithin dflt A) (input : Text) (m : Mode) (spec : Option CommandSpec) (out : Text)
    (h : convertInner fuel dflt input m spec true = .ok out) :
    ∃ toks expansion tree, tokensOf (spec.getD dflt) input = .ok toks ∧ expandAll fuel toks = .ok expansion ∧
      parse fuel ⟨spec.getD dflt, globPrefix⟩ true input = .ok tree ∧
      out.length ≤ sizeBound A (listDepth dflt tree) (6 * tokensSize expansion + 1) := by
  cases hp : parse fuel ⟨spec.getD dflt, globPrefix⟩ true input with
  | error x => unfold convertInner at h; rw [hp] at h; cases h
  | ok tree =>
    obtain ⟨m', hpr⟩ := (C61_document fuel dflt input m spec true tree hp out).1 h
    obtain ⟨toks, outs, ht, ho, hd⟩ := (C62_text_macro _ _ _ _).1 hp
    refine ⟨toks, outs, tree, ht, ho, rfl, ?_⟩
    refine Nat.le_trans (C74_tree dflt A hn tree m out m' hpr) (sizeBound_mono _ _ ?_)
    have h1 := document_weight hd
    rw [toksWeight_size] at h1
    omega

mutual
theorem listDepth_le (spec : CommandSpec) : ∀ e : Elem, listDepth spec e ≤ e.weight
  | .token k t => Nat.zero_le _
  | .node k cs => by
    have := listDepths_le spec cs
    simp only [listDepth, Elem.weight]
    split <;> omega
theorem listDepths_le (spec : CommandSpec) : ∀ cs : List Elem, listDepths spec cs ≤ weights cs
  | [] => Nat.le_refl _
  | c :: cs => by
    have h1 := listDepth_le spec c
    have h2 := listDepths_le spec cs
    simp only [listDepths, weights]
    omega
end

/-- **C74.** So the output is at most quadratic in the length of the input, whatever the input. -/
theorem C74_quadratic (fuel : Nat) (dflt : CommandSpec) (A : Nat) (hn : NamesWithin dflt A) (input : Text) (m : Mode) (spec : Option CommandSpec) (out : Text)
    (h : convertInner fuel dflt input m spec false = .ok out) : out.length ≤ (A + 106) * (12 * input.length + 1) ^ 2 := by
  cases hp : parse fuel ⟨spec.getD dflt, globPrefix⟩ false input with
  | error x => unfold convertInner at h; rw [hp] at h; cases h
  | ok tree =>
    obtain ⟨m', hpr⟩ := (C61_document fuel dflt input m spec false tree hp out).1 h
    obtain ⟨toks, ht, hd⟩ := (C62_text _ _ _ _).1 hp
    have hW : tree.weight ≤ 12 * input.length + 1 := by
      have h1 := document_weight hd
      have h2 := tokensSize_text ht
      rw [toksWeight_size] at h1
      omega
    have hb := C74_tree dflt A hn tree m out m' hpr
    generalize 12 * input.length + 1 = W at hW ⊢
    have h1 := listDepth_le dflt tree
    have h2 := decimal_le tree.weight
    have hpos := weight_pos tree
    have h3 : A + 2 * listDepth dflt tree + 2 * (decimal tree.weight).length + 100 ≤ (A + 106) * W := by
      have : (A + 102) * 1 ≤ (A + 102) * W := Nat.mul_le_mul_left _ (by omega)
      have e : (A + 106) * W = (A + 102) * W + 4 * W := by rw [← Nat.add_mul]
      omega
    refine Nat.le_trans hb ?_
    unfold sizeBound
    rw [Nat.pow_two, ← Nat.mul_assoc]
    exact Nat.mul_le_mul h3 hW

/-! ### The default specification -/

theorem C74_default : NamesWithin defaultSpec 64 := by
  have hall : defaultItems.all (fun e => match e.2 with
    | .cmd sh => decide ((sh.alias.getD e.1).length ≤ 64)
    | .env sh => decide ((sh.alias.getD e.1).length ≤ 64)) = true := by decide +kernel
  rw [List.all_eq_true] at hall
  constructor
  · intro name sh h
    exact of_decide_eq_true (hall _ (get_entry h))
  · intro name sh h
    exact of_decide_eq_true (hall _ (get_entry h))

/-! ### Lists make it quadratic -/

/-- Lines. -/
def manyLines : Nat → List TextItem
  | 0 => []
  | n + 1 => .word t!"x" :: .blank (.lines t!"\n") :: manyLines n

/-- Lines below lists. -/
def deepDoc (n : Nat) : Nat → Doc
  | 0 => .mk [] (.cons (.text (manyLines n)) [] .nil)
  | k + 1 => .mk [] (.cons (.environment t!"itemize" (deepDoc n k)) [] .nil)

theorem deepDoc_length (n k : Nat) : (deepDoc n k).latex.length = 2 * n + 28 * k := by
  induction k with
  | zero =>
    have : ∀ n, (itemsLatex (manyLines n)).length = 2 * n := by
      intro n
      induction n with
      | zero => rfl
      | succ n ih =>
        simp only [manyLines, itemsLatex, TextItem.latex, Blank.latex, List.length_append, List.length_singleton, ih]
        omega
    simp [deepDoc, Doc.latex, Proses.latex, Prose.latex, fillLatex, this]
  | succ k ih =>
    simp [deepDoc, Doc.latex, Proses.latex, Prose.latex, fillLatex, ih]
    omega

theorem itemize_inside (x : Place) : insidePlace defaultSpec x t!"itemize" = ⟨x.mode, .itemize, x.lists + 1⟩ := by
  have : defaultSpec t!"itemize" = some (.env ⟨.none, .isItemize, none⟩) := by decide +kernel
  unfold insidePlace
  rw [this]

theorem deepDoc_ok (n k : Nat) (x : Place) (rest : Text) (hr : NotFirst LineChar rest ∧ NotFirst WordChar rest) (hn : 0 < n) :
    (deepDoc n k).Ok defaultSpec x rest := by
  induction k generalizing x rest with
  | zero =>
    have : ∀ n, ItemsOk rest (manyLines n) ∧ NotFirst LineChar (itemsLatex (manyLines n) ++ rest) := by
      intro n
      induction n with
      | zero => exact ⟨trivial, hr.1⟩
      | succ n ih =>
        refine ⟨⟨⟨by simp, by decide +kernel, ?_⟩, ⟨by simp, ?_, ih.2⟩, ih.1⟩, ?_⟩
        · intro c hc
          cases hc
          decide +kernel
        · intro c hc
          rw [List.mem_singleton.1 hc]
          exact .inl rfl
        · intro c hc
          cases hc
          intro h
          rcases h with h | h <;> exact absurd h (by decide)
    refine ⟨trivial, ⟨?_, ?_⟩, trivial, fun _ => ⟨rfl, rfl⟩, trivial⟩
    · cases n with
      | zero => omega
      | succ n => rfl
    · exact (this n).1
  | succ k ih =>
    refine ⟨trivial, ⟨⟨t!"itemize", by decide +kernel, .inl rfl⟩, by decide +kernel, ⟨⟨.none, .isItemize, none⟩, by decide +kernel, .inl rfl, rfl⟩, ?_⟩, trivial, fun h => (by cases h), trivial⟩
    refine ih _ _ ⟨?_, ?_⟩
    · intro c hc
      cases hc
      intro h
      rcases h with h | h <;> exact absurd h (by decide)
    · intro c hc
      cases hc
      decide +kernel

theorem deepDoc_typst (n k : Nat) (x : Place) : n * (2 * (x.lists + k)) ≤ ((deepDoc n k).typst defaultSpec x).length := by
  induction k generalizing x with
  | zero =>
    have : ∀ n b, n * (2 * x.lists) ≤ (itemsTypst x.lists b (manyLines n)).length := by
      intro n
      induction n with
      | zero => intro b; simp
      | succ n ih =>
        intro b
        have := ih true
        simp only [manyLines, itemsTypst, TextItem.typst, Blank.typst, List.length_append, spaces, List.length_replicate, TextItem.isLines, Blank.isLines,
          Nat.add_mul]
        omega
    have h := this n false
    simp only [deepDoc, Doc.typst, Proses.typst, Prose.typst, fillTypst, List.length_append, List.nil_append, Nat.add_zero]
    simpa using h
  | succ k ih =>
    have h := ih ⟨x.mode, .itemize, x.lists + 1⟩
    have hs : defaultSpec t!"itemize" = some (.env ⟨.none, .isItemize, none⟩) := by decide +kernel
    have ha : ∀ t, aroundTypst defaultSpec t!"itemize" t = t := by
      intro t
      unfold aroundTypst
      rw [hs]
      exact if_pos (.inl rfl)
    simp only [deepDoc, Doc.typst, Proses.typst, Prose.typst, fillTypst, ha, itemize_inside, List.append_nil, List.nil_append]
    have e : x.lists + (k + 1) = x.lists + 1 + k := by omega
    rw [e]
    exact h

/-- **C74.** The quadratic bound is attained, up to a factor: lines below nested lists are indented. -/
theorem C74_attained (n : Nat) (hn : 0 < n) (macros : Bool) : ∃ input : Text, input.length = 30 * n ∧
    ∃ fuel out, convertInner fuel defaultSpec input .text none macros = .ok out ∧ 2 * n ^ 2 ≤ out.length := by
  refine ⟨(deepDoc n n).latex, by rw [deepDoc_length]; omega, ?_⟩
  have hok := deepDoc_ok n n (Place.top .text) [] ⟨fun c hc => (by cases hc), fun c hc => (by cases hc)⟩ hn
  obtain ⟨tree, m', hd, hp⟩ := Doc.denotes hok hok macros
  obtain ⟨fuel, hf⟩ := (C66_exact defaultSpec (deepDoc n n).latex .text none macros _ (fun h => (by cases h))).2 (.printed hd hp)
  refine ⟨fuel, _, hf, ?_⟩
  have := deepDoc_typst n n (Place.top .text)
  have e : n * (2 * ((Place.top .text).lists + n)) = 2 * n ^ 2 := by
    show n * (2 * (0 + n)) = _
    rw [Nat.zero_add, Nat.pow_two]
    exact Nat.mul_left_comm _ _ _
  rw [e] at this
  exact this

end Mitex
