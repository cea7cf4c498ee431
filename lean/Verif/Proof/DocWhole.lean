/-
The grammar (Spec/Grammar.lean) reads documents (Spec/Document.lean) as elements that are printed as their Typst text: all documents.
-/
import Verif.Proof.DocFigure

namespace Mitex
open Grammar (Item Items Row)

mutual
theorem Prose.parse {rs ps : CommandSpec} : ∀ (p : Prose) {x y : Place} {rest : Text}, p.Ok rs y rest → p.Ok ps x rest → TextPlace x → Takes rs ps x p
  | .text is, ⟨_, env, n⟩, y, rest, h, h', ⟨rfl, he⟩ => by
    rw [Prose.Ok] at h
    exact text_takes h.1
  | .apostrophe, ⟨_, env, n⟩, y, rest, h, h', ⟨rfl, he⟩ => apostrophe_takes
  | .sign c, ⟨_, env, n⟩, y, rest, h, h', ⟨rfl, he⟩ => by
    rw [Prose.Ok] at h
    exact sign_takes h
  | .newline, ⟨_, env, n⟩, y, rest, h, h', ⟨rfl, he⟩ => by
    rw [Prose.Ok] at h'
    refine newline_takes ?_
    rcases he with he | he | he | he | he
    · exact .inl he
    · exact .inr (.inl he)
    · exact .inr (.inr (.inl he))
    · exact absurd he h'
    · exact .inr (.inr (.inr he))
  | .symbol name, ⟨_, env, n⟩, y, rest, h, h', ⟨rfl, he⟩ => by
    rw [Prose.Ok] at h h'
    exact symbol_takes h.1 h'.1 h'.2.1
  | .group d, ⟨_, env, n⟩, y, rest, h, h', ⟨rfl, he⟩ => by
    rw [Prose.Ok] at h h'
    exact group_takes (Doc.parse d h h' ⟨rfl, he⟩)
  | .command name args, ⟨_, env, n⟩, y, rest, h, h', ⟨rfl, he⟩ => by
    rw [Prose.Ok] at h h'
    obtain ⟨-, -, h2, ⟨p, ⟨sh, h3, h4⟩, h5⟩, -, h6⟩ := h
    obtain ⟨h1', hf, -, ⟨p', ⟨sh', h3', h4'⟩, h5'⟩, h7', h6'⟩ := h'
    refine command_takes (toks := args.toks) h3 h4 (fitsKinds_ne h5.2.2.1 h2) h5.1 h5.2.1 (fun k => by rw [Prose.toks]) (by simp [Prose.endsLine])
      hf fun {sc k} fill hs => ?_
    obtain ⟨es, h8, h9⟩ := DocArgs.parse args h6 h6' ⟨rfl, he⟩ (sc := sc) (p := p) (ks := []) (k := k) fill h5.2.2.1 h5.2.2.2 hs
    refine ⟨es, h8, fun b => ?_⟩
    rw [Prose.typst]
    exact command_writes h1'.2.2 h3' h4' h5'.1 h5'.2.1 h7' h9 b
  | .formula m f, ⟨_, env, n⟩, y, rest, h, h', ⟨rfl, he⟩ => by
    rw [Prose.Ok] at h h'
    exact formula_takes h.1 h'.1
  | .equations name args body, ⟨_, env, n⟩, y, rest, h, h', ⟨rfl, he⟩ => by
    rw [Prose.Ok] at h h'
    exact equations_take h h'
  | .label l, ⟨_, env, n⟩, y, rest, h, h', ⟨rfl, he⟩ => by
    rw [Prose.Ok] at h h'
    exact label_takes h'.2.1 h.1 h.2.2.1 h.2.2.2
  | .item, ⟨_, env, n⟩, y, rest, h, h', ⟨rfl, he⟩ => by
    rw [Prose.Ok] at h h'
    exact item_takes h'.2.1 h'.2.2.1 h.1
  | .environment name d, ⟨_, env, n⟩, y, rest, h, h', ⟨rfl, he⟩ => by
    rw [Prose.Ok] at h h'
    exact environment_takes h.1 h.2.2.1 h'.2.2.1 rfl (Doc.parse d h.2.2.2 h'.2.2.2 (inside_place ⟨rfl, he⟩ h'.2.2.1))
  | .image opts file, ⟨_, env, n⟩, y, rest, h, h', ⟨rfl, he⟩ => by
    rw [Prose.Ok] at h
    exact image_takes h.1 h.2.1 h.2.2.2
  | .colored name model color body, ⟨_, env, n⟩, y, rest, h, h', ⟨rfl, he⟩ => by
    rw [Prose.Ok] at h h'
    exact colored_takes h.1 h.2.1 h.2.2.1 (Doc.parse color h.2.2.2.1 h'.2.2.2.1 ⟨rfl, he⟩) (Doc.parse body h.2.2.2.2 h'.2.2.2.2 ⟨rfl, he⟩)
  | .table name cols fill cells rules, ⟨_, env, n⟩, y, rest, h, h', ⟨rfl, he⟩ => by
    rw [Prose.Ok] at h h'
    obtain ⟨h1, -, ⟨sh, h2, -, h3⟩, -, h4, h5, h6, h7, h8⟩ := h
    obtain ⟨-, -, ⟨sh', h2', h3', -⟩, -, -, -, -, h7', -⟩ := h'
    exact table_takes h1 ⟨sh, h2, h3⟩ ⟨sh', h2', h3'⟩ h4 h6 (fun k hk => cells.soft h7 hk) (TableCells.parse cells h7 h7' ⟨rfl, rfl⟩) h8
  | .figure name opt fill head qs tail, ⟨_, env, n⟩, y, rest, h, h', ⟨rfl, he⟩ => by
    rw [Prose.Ok] at h h'
    obtain ⟨h1, -, ⟨sh, h2, -, h3⟩, h4, h5, h6, h7, h8, h9⟩ := h
    obtain ⟨-, -, ⟨sh', h2', h3', -⟩, -, h5', -, h7', -, h9'⟩ := h'
    exact figure_takes h1 ⟨sh, h2, h3⟩ ⟨sh', h2', h3'⟩ h6 h8 h7 (FigMarks.parse head h5 h5' rfl)
      (Proses.parse qs h7 h7' ⟨rfl, .inr (.inr (.inr (.inr rfl)))⟩) (FigMarks.parse tail h9 h9' rfl)
theorem Doc.parse {rs ps : CommandSpec} : ∀ (d : Doc) {x y : Place} {rest : Text}, d.Ok rs y rest → d.Ok ps x rest → TextPlace x →
    DocReads rs ps x d.toks (d.typst ps x) d.endsLine d.hasBracket
  | .mk lead qs, x, y, rest, h, h', hx => by
    rw [Doc.Ok] at h h'
    have ih := Proses.parse qs h.2 h'.2 hx
    refine ⟨?_⟩
    intro sc stop pre f k hl hb hq hs
    rw [Doc.toks, Doc.typst, Doc.endsLine]
    have hw := Wrote.start (ps := ps) (x := x) (pre := pre ++ (fillToks lead).map leafOf) (b0 := atLineStart false lead) (g := true) (f := f) (l := none)
      (fun _ => rfl)
    obtain ⟨r1, g1, h1, h2⟩ := ih.go (sc := sc) hl hb qs.primed_true hw hq
    obtain ⟨es, h3, h4, h5, -⟩ := h1.go
    have h6 := parse_fill hl lead ⟨pre, f, none⟩ (h2 _ _ (.over hs))
    obtain ⟨items, f', l'⟩ := r1
    cases h3
    refine ⟨(fillToks lead).map leafOf ++ es, f', l', by rw [← List.append_assoc]; exact h6, (fill_steps lead false).append h4, fun e he => ?_⟩
    rcases List.mem_append.mp he with he | he
    · exact fill_tame lead e he
    · exact h5 e he
theorem Proses.parse {rs ps : CommandSpec} : ∀ (qs : Proses) {x y : Place} {rest : Text}, qs.Ok rs y rest → qs.Ok ps x rest → TextPlace x →
    TakesAll rs ps x qs
  | .nil, x, y, rest, h, h', hx => by
    refine ⟨?_⟩
    intro sc stop b0 g pre r t b k hl hb hpr hw hq
    rw [Proses.toks, Proses.typst, Proses.endsLine, List.append_nil]
    exact ⟨r, g, hw, fun r' ts' hi => hi⟩
  | .cons p fill qs, x, y, rest, h, h', hx => by
    rw [Proses.Ok] at h h'
    obtain ⟨h1, h2, h3, h4⟩ := h
    obtain ⟨h1', h2', h3', h4'⟩ := h'
    have hp := Prose.parse p h1 h1' hx
    have hqs := Proses.parse qs h4 h4' hx
    refine ⟨?_⟩
    intro sc stop b0 g pre r t b k hl hb hpr hw hq
    rw [Proses.primed, Bool.and_eq_true] at hpr
    have hb' := fun h => Bool.or_eq_false_iff.mp (hb h)
    obtain ⟨r1, a1, a2⟩ := hp.go (sc := sc) fill hl (fun h => (hb' h).1) hpr.1 hw (qs.soft h4 hq.soft) (fun ht => ⟨(h3 ht).1, qs.halted h4 (h3 ht).2 hq⟩)
    obtain ⟨r2, g2, b1, b2⟩ := hqs.go (sc := sc) hl (fun h => (hb' h).2) hpr.2 a1 hq
    rw [Proses.toks, Proses.typst, Proses.endsLine, ← List.append_assoc]
    exact ⟨r2, g2, b1, fun r' ts' hi => a2 _ _ (b2 _ _ hi)⟩
theorem DocArgs.parse {rs ps : CommandSpec} : ∀ (as : DocArgs) {x y : Place} {rest : Text}, as.Ok rs y rest → as.Ok ps x rest → TextPlace x →
    ∀ {sc : Scope} {p : ArgPattern} {ks : List ArgKind} {k : List Tok} (fill : List Blank), TakesExactly p ks as.kinds →
    (ArgKind.bracket ∈ as.kinds → Grammar.seesGroup p .bracket = true) → Soft k →
    ∃ es, Grammar.Args ⟨rs, globPrefix⟩ sc p ks (as.toks (fillToks fill ++ k)) es (fillToks fill) k ∧ ArgsWrite ps x es (as.typst ps x)
  | .nil, x, y, rest, h, h', hx, sc, p, ks, k, fill, ht, hb, hs => by
    rw [DocArgs.toks, DocArgs.typst]
    exact ⟨[], args_fill ht hs fill, .nil⟩
  | .cons square d as, ⟨_, env, n⟩, y, rest, h, h', ⟨rfl, he⟩, sc, p, ks, k, fill, ht, hb, hs => by
    rw [DocArgs.Ok] at h h'
    obtain ⟨h1, h2, h3⟩ := h
    rw [DocArgs.toks, DocArgs.typst]
    obtain ⟨es, a1, a2⟩ := DocArgs.parse as h3 h'.2.2 ⟨rfl, he⟩ (sc := sc) fill ht.2 (fun h => hb (List.mem_cons_of_mem _ h)) hs
    obtain ⟨fs, b1, b2⟩ := doc_argument (Doc.parse d h1 h'.1 ⟨rfl, he⟩) square h2 (fun h => hb (by subst h; exact List.mem_cons_self)) ht.1 a1
    refine ⟨_, b2, .cons ?_ a2⟩
    cases square with
    | false => exact curly_writes b1.writes false
    | true => exact square_writes b1.writes false
theorem TableCells.parse {rs ps : CommandSpec} : ∀ (cells : TableCells) {x y : Place} {rest : Text}, cells.Ok rs y rest → cells.Ok ps x rest →
    x.mode = .text ∧ x.env = .table → CellsTake rs ps x cells
  | .nil, x, y, rest, h, h', hx => by
    refine ⟨fun {k} b r hs => ⟨[], r.first, r.last, ?_, fun e he => (by cases he), fun r' ts' hi => ?_⟩⟩
    · rw [TableCells.typst, TableCells.endsLine]
      exact .nil
    · rw [TableCells.toks]
      rw [List.append_nil] at hi
      exact hi
  | .cons rules qs ends fill cells, x, y, rest, h, h', hx => by
    rw [TableCells.Ok] at h h'
    obtain ⟨h1, h2, h3, h4, h5, h6⟩ := h
    obtain ⟨-, h2', -, -, -, h6'⟩ := h'
    exact cells_take hx.2 h1 h2 h3 h5 (Proses.parse qs h2 h2' ⟨hx.1, .inr (.inr (.inr (.inl hx.2)))⟩) (TableCells.parse cells h6 h6' hx)
theorem FigMarks.parse {rs ps : CommandSpec} : ∀ (ms : FigMarks) {n : Nat} {x y : Place} {rest : Text}, ms.Ok rs y rest → ms.Ok ps x rest →
    x = ⟨.text, .figure, n⟩ → MarksTake rs ps ⟨.text, .figure, n⟩ ms
  | .nil, n, x, y, rest, h, h', hx => by
    refine ⟨fun {k lab} b r hs => ⟨[], r.first, r.last, ?_, fun r' ts' hi => ?_⟩⟩
    · rw [FigMarks.captions, FigMarks.typst, FigMarks.labels, FigMarks.endsLine]
      exact .nil
    · rw [FigMarks.toks]
      rw [List.append_nil] at hi
      exact hi
  | .centering fill ms, n, x, y, rest, h, h', hx => by
    rw [FigMarks.Ok] at h h'
    exact centering_take h.1 (FigMarks.parse ms h.2.2.2 h'.2.2.2 hx)
  | .caption d fill ms, n, x, y, rest, h, h', hx => by
    rw [FigMarks.Ok] at h h'
    exact caption_take h.1 (Doc.parse d h.2.1 (by rw [← hx]; exact h'.2.1) ⟨rfl, .inr (.inr (.inr (.inr rfl)))⟩) (FigMarks.parse ms h.2.2.2 h'.2.2.2 hx)
  | .label l fill ms, n, x, y, rest, h, h', hx => by
    rw [FigMarks.Ok] at h h'
    exact label_take h.1 h.2.1 (FigMarks.parse ms h.2.2.2 h'.2.2.2 hx)
end

end Mitex
