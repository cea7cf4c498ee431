/-
C68: documents, nested without bound, become what is written for them.
-/
import Verif.Proof.DocWhole
import Verif.Proof.DocCheck
import Verif.Props.Formula

namespace Mitex

/-- A document denotes a tree that is printed as its Typst text. -/
theorem Doc.denotes {dflt spec : CommandSpec} {d : Doc} (h : d.Ok dflt (Place.top .text) []) (hs : d.Ok spec (Place.top .text) []) (macros : Bool) :
    ∃ tree m, Denotes spec macros d.latex tree ∧ Printed dflt (Place.top .text) tree ⟨none, true⟩ (d.typst dflt (Place.top .text)) m := by
  have hl := d.lex hs (rest := []) .nil
  rw [List.append_nil] at hl
  obtain ⟨es, f', l', h1, h2, -⟩ := (d.parse hs h ⟨rfl, .inl rfl⟩).go (sc := .root) (stop := []) (pre := []) (f := some 0) (k := []) docLets_root
    (fun h => by cases h) (fun t ht => by cases ht) (fun t ht => by cases ht)
  refine ⟨.node .scopeRoot es, mem d.endsLine, ⟨d.toks [], ⟨d.toks [], hl, ?_⟩, ⟨_, h1, rfl⟩⟩, ?_⟩
  · cases macros
    · exact rfl
    · exact (d.calm hs (k := []) (fun t ht => by cases ht)).expands
  · exact .mk (ps := each (Place.top .text) es) rfl h2.writes

/-- **C68.** `convert_text` takes every document of `Spec/Document` to the Typst text written for it.  The document has to be one of both the
specification given (which directs the reading) and the default specification (which directs the printing, C48). -/
theorem C68_document (dflt : CommandSpec) (d : Doc) (spec : Option CommandSpec) (h : d.Ok dflt (Place.top .text) [])
    (hs : d.Ok (spec.getD dflt) (Place.top .text) []) : ∃ fuel, convertText fuel dflt d.latex spec = .ok (d.typst dflt (Place.top .text)) :=
  (C66_converts dflt d.latex spec _).1.mpr (d.denotes h hs true)

/-! ## Examples -/

/-- A word. -/
def wordOf (w : Text) : TextItem := .word w

/-- A blank. -/
def gap : TextItem := .blank (.blanks [' '])

/-- A line end with the indentation of the next line. -/
def lineBreak (n : Nat) : List Blank := .lines ['\n'] :: if n = 0 then [] else [.blanks (spaces n)]

/-- A text with formulas, and a list in a list. -/
def shortText : Doc := .mk [] (.cons (.text [wordOf t!"Of", gap]) []
  (.cons (.command t!"textbf" (.cons false (.mk [] (.cons (.text [wordOf t!"strong", .comma, gap]) []
    (.cons (.command t!"textit" (.cons false (.mk [] (.cons (.text [wordOf t!"slanted"]) [] .nil)) .nil)) [] .nil))) .nil)) (lineBreak 2)
  (.cons (.text [wordOf t!"words", gap]) []
  (.cons (.formula .dollar (.mk 0 (.cons (.script (lettersOf t!"x") true (.char '2')) 0 .nil))) (.comment t!" a square" :: lineBreak 0)
  (.cons (.environment t!"enumerate" (.mk (lineBreak 2) (.cons .item [.blanks [' ']]
    (.cons (.text (wordOf t!"one" :: (lineBreak 2).map .blank)) []
    (.cons (.environment t!"itemize" (.mk [] (.cons .item [.blanks [' ']] (.cons (.text [wordOf t!"it"]) []
      (.cons .apostrophe [] (.cons (.text [wordOf t!"s"]) [] .nil)))))) [] .nil))))) []
  .nil)))))

/-- Displayed equations with a label, and a line break. -/
def equationsText : Doc := .mk [] (.cons (.equations t!"aligned" .nil (.cons (.mk 0 (.cons (lettersOf t!"a") 1 .nil)) false
    (.cons (.mk 1 (.cons (.symbol t!"alpha") 1 .nil)) true (.last (.mk 0 (.cons (lettersOf t!"b") 0 .nil)))))) []
  (.cons (.label t!"eq:one") [.blanks [' ']]
  (.cons (.text [wordOf t!"See", gap]) []
  (.cons (.sign '(') [] (.cons (.text [wordOf t!"1"]) [] (.cons (.sign ')') [.blanks [' ']] (.cons .newline []
  (.cons (.formula .brackets (.mk 0 (.cons (.command t!"frac" (.cons false (.mk 0 (.cons (lettersOf t!"1") 0 .nil))
    (.cons false (.mk 0 (.cons (lettersOf t!"2") 0 .nil)) .nil))) 0 .nil))) [] (.cons (.group (.mk [.blanks [' ']] .nil)) []
    (.cons (.symbol t!"%") [] .nil))))))))))

example : shortText.latex = t!"Of \\textbf{strong, \\textit{slanted}}\n  words $x^2$% a square\n\\begin{enumerate}\n  \\item one\n  \\begin{itemize}\\item it's\\end{itemize}\\end{enumerate}" := by
  decide +kernel
example : shortText.typst defaultSpec (Place.top .text) =
    t!"Of #strong[strong\\, #emph[slanted];];\nwords #math.equation(block: false, $x ^(2 )$);\n\n  \n+  one\n  \n  -  it's" := by decide +kernel

theorem shortText_ok : shortText.Ok defaultSpec (Place.top .text) [] := Check.doc_ok (by decide +kernel)

theorem equationsText_ok : equationsText.Ok defaultSpec (Place.top .text) [] := Check.doc_ok (by decide +kernel)

/-- So it is converted as the lines above say. -/
example : ∃ fuel, convertText fuel defaultSpec shortText.latex none = .ok (shortText.typst defaultSpec (Place.top .text)) :=
  C68_document defaultSpec shortText none shortText_ok shortText_ok

example : equationsText.latex = t!"\\begin{aligned}a & \\alpha \\\\b\\end{aligned}\\label{eq:one} See (1) \\\\\\[\\frac{1}{2}\\]{ }\\%" := by decide +kernel
example : equationsText.typst defaultSpec (Place.top .text) =
    t!"$ aligned(a  & alpha  \\ b ) $<eq:one> See \\(1\\) \\ $ frac(1 ,2 ) $ % " := by decide +kernel

/-- A figure with a caption and a label, and a table in it. -/
def figureText : Doc := .mk [] (.cons (.figure t!"figure" (some t!"ht") (lineBreak 2) (.centering (lineBreak 2) .nil)
  (.cons (.image [⟨[], t!"width", t!"0.5", .width⟩, ⟨[' '], t!"height", t!"3cm", .plain⟩, ⟨[], t!"angle", t!"4", .plain⟩] [t!"a", t!"b.png"]) (lineBreak 2)
    (.cons (.table t!"tabular" t!"l|c" (lineBreak 4)
      (.cons [(t!"toprule", lineBreak 4)] (.cons (.text [wordOf t!"x", gap]) [] .nil) false [.blanks [' ']]
      (.cons [] (.cons (.colored t!"textcolor" (some t!"rgb") (.mk [] (.cons (.text [wordOf t!"1", .comma, wordOf t!"0"]) [] .nil))
        (.mk [] (.cons (.text [wordOf t!"red"]) [] .nil))) [.blanks [' ']] .nil) true (lineBreak 4)
      (.cons [(t!"midrule", lineBreak 4), (t!"hline", [.blanks [' ']])] .nil false [.blanks [' ']]
      (.cons [] (.cons (.formula .dollar (.mk 0 (.cons (lettersOf t!"y") 0 .nil))) [.blanks [' ']] .nil) true (lineBreak 4) .nil))))
      [(t!"bottomrule", lineBreak 2)]) (lineBreak 2) .nil))
  (.caption (.mk [] (.cons (.text [wordOf t!"A", gap]) [] (.cons (.command t!"textbf" (.cons false (.mk [] (.cons (.text [wordOf t!"b"]) [] .nil)) .nil)) [] .nil)))
    (lineBreak 2) (.label t!"f:1" (lineBreak 0) .nil))) [.blanks [' ']] (.cons (.text [wordOf t!"End"]) [] .nil))

example : figureText.latex = t!"\\begin{figure}[ht]\n  \\centering\n  \\includegraphics[width=0.5\\textwidth, height=3cm,angle=4]{a/b.png}\n  \\begin{tabular}{l|c}\n    \\toprule\n    x & \\textcolor[rgb]{1,0}{red} \\\\\n    \\midrule\n    \\hline & $y$ \\\\\n    \\bottomrule\n  \\end{tabular}\n  \\caption{A \\textbf{b}}\n  \\label{f:1}\n\\end{figure} End" := by
  decide +kernel
example : figureText.typst defaultSpec (Place.top .text) =
    t!"#figure(caption: [A #strong[b];],)[\n\n#image(width: 0.5 * 100%, height: 3cm, \"a/b.png\")\n#table(stroke: none,\ncolumns: 2,\nalign: (left, center, ),\ntable.vline(stroke: .5pt, x: 1), \ntable.hline(stroke: 1pt),\n[x ], [#colortext([rgb], [1\\,0])[red]; ],\ntable.hline(stroke: .5pt),\ntable.hline(stroke: .5pt),\n[], [#math.equation(block: false, $y $); ],\ntable.hline(stroke: 1pt),\n);\n\n\n];<f:1>End" := by
  decide +kernel

theorem figureText_ok : figureText.Ok defaultSpec (Place.top .text) [] := Check.doc_ok (by decide +kernel)

example : ∃ fuel, convertText fuel defaultSpec figureText.latex none = .ok (figureText.typst defaultSpec (Place.top .text)) :=
  C68_document defaultSpec figureText none figureText_ok figureText_ok

/-- Nesting without bound: `n` lists in each other. -/
def nested : Nat → Proses
  | 0 => .cons (.text [wordOf t!"x"]) [] .nil
  | n + 1 => .cons (.environment t!"itemize" (.mk [] (.cons .item [.blanks [' ']] (nested n)))) [] .nil

example : (nested 2).latex = t!"\\begin{itemize}\\item \\begin{itemize}\\item x\\end{itemize}\\end{itemize}" := by decide +kernel

theorem nested_ok : ∀ (n : Nat) (x : Place) (rest : Text), NotFirst WordChar rest → (nested n).Ok defaultSpec x rest
  | 0, x, rest, h => by
    rw [nested, Proses.Ok, Prose.Ok, Proses.Ok]
    refine ⟨⟨rfl, ⟨by decide, by decide, ?_⟩, trivial⟩, trivial, fun _ => ⟨rfl, rfl⟩, trivial⟩
    exact h
  | n + 1, x, rest, h => by
    have hin : insidePlace defaultSpec x t!"itemize" = ⟨x.mode, .itemize, x.lists + 1⟩ := by
      have : ∃ sh, defaultSpec t!"itemize" = some (.env sh) ∧ sh.ctx = .isItemize := by
        have h : (match defaultSpec t!"itemize" with
          | some (.env sh) => decide (sh.ctx = .isItemize)
          | _ => false) = true := by decide +kernel
        split at h
        · next sh hsh => exact ⟨sh, hsh, of_decide_eq_true h⟩
        · cases h
      obtain ⟨sh, h1, h2⟩ := this
      unfold insidePlace
      rw [h1]
      dsimp only
      rw [h2]
    have h1 : (nested 1).Ok defaultSpec (Place.top .text) [] := Check.proses_ok (by decide +kernel)
    rw [nested, Proses.Ok, Prose.Ok, Proses.Ok, Doc.Ok, Proses.Ok, Prose.Ok] at h1
    obtain ⟨⟨h2, h3, h4, -, ⟨h5, -⟩, -⟩, -⟩ := h1
    have hsoft : ∀ n, NotFirst BlankChar ((nested n).latex ++ (t!"\\end" ++ '{' :: (t!"itemize" ++ '}' :: rest))) := by
      intro n
      cases n <;> (intro c hc; cases hc; decide)
    rw [nested, Proses.Ok, Prose.Ok, Proses.Ok, hin, Doc.Ok, Proses.Ok, Prose.Ok]
    refine ⟨⟨h2, h3, h4, trivial, ⟨h5, .inl rfl, Nat.succ_pos _, fun c hc => ?_⟩, ⟨⟨by decide, by decide, hsoft n⟩, trivial⟩,
      fun h => (by cases h), nested_ok n _ _ fun c hc => ?_⟩, trivial, fun h => (by cases h), trivial⟩
    · cases hc; decide
    · cases hc; decide

end Mitex
