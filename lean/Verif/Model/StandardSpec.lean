/-
The standard package, packages/mitex/specs/latex/standard.typ:91-1186, transcribed entry by entry
(scripts/genspec.py; the Typst handlers are dropped, the helpers of prelude.typ are unfolded to the items
they produce).  It is the source of the default specification (crates/mitex-spec-gen/build.rs).
-/
import Verif.Model.SpecQuery

namespace Mitex

/-- standard.typ, entries 1-60 of the standard package. -/
def stdChunk0 : HMap SugarItem := [
  (t!"section", .cmd ⟨.right (.fixedLen 1), (some t!"#heading(level: 1)")⟩),
  (t!"subsection", .cmd ⟨.right (.fixedLen 1), (some t!"#heading(level: 2)")⟩),
  (t!"subsubsection", .cmd ⟨.right (.fixedLen 1), (some t!"#heading(level: 3)")⟩),
  (t!"footnote", .cmd ⟨.right (.fixedLen 1), (some t!"#footnote")⟩),
  (t!"cite", .cmd ⟨.right (.fixedLen 1), (some t!"#mitexcite")⟩),
  (t!"emph", .cmd ⟨.right (.fixedLen 1), (some t!"#emph")⟩),
  (t!"label", .cmd ⟨.right (.fixedLen 1), (some t!"mitexlabel")⟩),
  (t!"tag", .cmd ⟨.right (.fixedLen 1), (some t!"mitexlabel")⟩),
  (t!"ref", .cmd ⟨.right (.fixedLen 1), (some t!"#mitexref")⟩),
  (t!"eqref", .cmd ⟨.right (.fixedLen 1), (some t!"#mitexref")⟩),
  (t!"item", .symAlias []),
  (t!"itemize", .env ⟨.none, .isItemize, none⟩),
  (t!"enumerate", .env ⟨.none, .isEnumerate, none⟩),
  (t!"quote", .env ⟨.none, .none, (some t!"quote(block: true)")⟩),
  (t!"abstract", .env ⟨.none, .none, (some t!"quote(block: true)")⟩),
  (t!"figure", .envGlob t!"{,b}" t!"figure" .isFigure),
  (t!"table", .envGlob t!"{,b}" t!"figure" .isFigure),
  (t!"tabular", .env ⟨(.fixedLen 1), .isTable, (some t!"table")⟩),
  (t!"centering", .symAlias []),
  (t!"textwidth", .symbol),
  (t!"caption", .cmd ⟨.right (.fixedLen 1), (some t!"mitexcaption")⟩),
  (t!"includegraphics", .cmdGlob t!"{,b}t" t!"#miteximage"),
  (t!"toprule", .cmdGlob t!"{,b}" t!"toprule"),
  (t!"midrule", .cmdGlob t!"{,b}" t!"midrule"),
  (t!"bottomrule", .cmdGlob t!"{,b}" t!"bottomrule"),
  (t!"hline", .symAlias []),
  (t!"vline", .symAlias []),
  (t!"!", .symAlias t!"negthinspace"),
  (t!"negthinspace", .symbol),
  (t!"negthinmedspace", .symbol),
  (t!"negmedspace", .symbol),
  (t!"negthickspace", .symbol),
  (t!",", .symAlias t!"thin"),
  (t!"thinspace", .symAlias t!"thin"),
  (t!">", .symAlias t!"med"),
  (t!":", .symAlias t!"med"),
  (t!"medspace", .symAlias t!"med"),
  (t!";", .symAlias t!"thick"),
  (t!"", .symAlias t!"thick"),
  (t!"thickspace", .symAlias t!"thick"),
  (t!"enspace", .symbol),
  (t!"nobreakspace", .symAlias t!"space.nobreak"),
  (t!"space", .symbol),
  (t!"quad", .symbol),
  (t!"qquad", .symAlias t!"wide"),
  (t!"phantom", .cmd ⟨.right (.fixedLen 1), none⟩),
  (t!"hphantom", .cmd ⟨.right (.fixedLen 1), none⟩),
  (t!"vphantom", .cmd ⟨.right (.fixedLen 1), none⟩),
  (t!"smash", .cmd ⟨.right (.fixedLen 1), none⟩),
  (t!"_", .symAlias t!"\\_"),
  (t!"^", .symAlias t!"hat"),
  (t!"*", .symAlias t!""),
  (t!"|", .symAlias t!"||"),
  (t!"&", .symAlias t!"amp"),
  (t!"#", .symAlias t!"hash"),
  (t!"%", .symAlias t!"%"),
  (t!"-", .symAlias t!"-"),
  (t!"+", .symAlias t!"+"),
  (t!"$", .symAlias t!"dollar"),
  (t!"{", .symAlias t!"\\{")]

/-- standard.typ, entries 61-120 of the standard package. -/
def stdChunk1 : HMap SugarItem := [
  (t!"}", .symAlias t!"\\}"),
  (t!"vert", .symAlias t!"|"),
  (t!"lvert", .symbol),
  (t!"rvert", .symbol),
  (t!"Vert", .symAlias t!"||"),
  (t!"lVert", .symbol),
  (t!"rVert", .symbol),
  (t!"lparen", .symAlias t!"paren.l"),
  (t!"rparen", .symAlias t!"paren.r"),
  (t!"lceil", .symAlias t!"⌈"),
  (t!"rceil", .symAlias t!"⌉"),
  (t!"lfloor", .symAlias t!"⌊"),
  (t!"rfloor", .symAlias t!"⌋"),
  (t!"displaystyle", .cmdGreedy t!"mitexdisplay"),
  (t!"textstyle", .cmdGreedy t!"mitexinline"),
  (t!"scriptstyle", .cmdGreedy t!"mitexscript"),
  (t!"scriptscriptstyle", .cmdGreedy t!"mitexsscript"),
  (t!"bf", .cmdGreedy t!"mitexbold"),
  (t!"rm", .cmdGreedy t!"mitexupright"),
  (t!"it", .cmdGreedy t!"mitexitalic"),
  (t!"sf", .cmdGreedy t!"mitexsans"),
  (t!"frak", .cmdGreedy t!"mitexfrak"),
  (t!"tt", .cmdGreedy t!"mitexmono"),
  (t!"cal", .cmdGreedy t!"mitexcal"),
  (t!"bold", .cmd ⟨.right (.fixedLen 1), (some t!"bold")⟩),
  (t!"mathbf", .cmd ⟨.right (.fixedLen 1), (some t!"mitexmathbf")⟩),
  (t!"bm", .cmd ⟨.right (.fixedLen 1), (some t!"bold")⟩),
  (t!"boldsymbol", .cmd ⟨.right (.fixedLen 1), (some t!"bold")⟩),
  (t!"pmb", .cmd ⟨.right (.fixedLen 1), (some t!"bold")⟩),
  (t!"mathrm", .cmd ⟨.right (.fixedLen 1), (some t!"upright")⟩),
  (t!"mathit", .cmd ⟨.right (.fixedLen 1), (some t!"italic")⟩),
  (t!"mathnormal", .cmd ⟨.right (.fixedLen 1), (some t!"italic")⟩),
  (t!"mathsf", .cmd ⟨.right (.fixedLen 1), (some t!"sans")⟩),
  (t!"mathfrak", .cmd ⟨.right (.fixedLen 1), (some t!"frak")⟩),
  (t!"mathtt", .cmd ⟨.right (.fixedLen 1), (some t!"mono")⟩),
  (t!"Bbb", .cmd ⟨.right (.fixedLen 1), (some t!"bb")⟩),
  (t!"mathbb", .cmd ⟨.right (.fixedLen 1), (some t!"bb")⟩),
  (t!"mathcal", .cmd ⟨.right (.fixedLen 1), (some t!"cal")⟩),
  (t!"mathscr", .cmd ⟨.right (.fixedLen 1), none⟩),
  (t!"mathbin", .cmd ⟨.right (.fixedLen 1), none⟩),
  (t!"mathclose", .cmd ⟨.right (.fixedLen 1), none⟩),
  (t!"mathinner", .cmd ⟨.right (.fixedLen 1), none⟩),
  (t!"mathop", .cmd ⟨.right (.fixedLen 1), none⟩),
  (t!"mathopen", .cmd ⟨.right (.fixedLen 1), none⟩),
  (t!"mathord", .cmd ⟨.right (.fixedLen 1), none⟩),
  (t!"mathpunct", .cmd ⟨.right (.fixedLen 1), none⟩),
  (t!"mathrel", .cmd ⟨.right (.fixedLen 1), none⟩),
  (t!"big", .cmd ⟨.right (.fixedLen 1), none⟩),
  (t!"Big", .cmd ⟨.right (.fixedLen 1), none⟩),
  (t!"bigg", .cmd ⟨.right (.fixedLen 1), none⟩),
  (t!"Bigg", .cmd ⟨.right (.fixedLen 1), none⟩),
  (t!"bigl", .cmd ⟨.right (.fixedLen 1), (some t!"big")⟩),
  (t!"Bigl", .cmd ⟨.right (.fixedLen 1), (some t!"Big")⟩),
  (t!"biggl", .cmd ⟨.right (.fixedLen 1), (some t!"bigg")⟩),
  (t!"Biggl", .cmd ⟨.right (.fixedLen 1), (some t!"Bigg")⟩),
  (t!"bigm", .cmd ⟨.right (.fixedLen 1), (some t!"big")⟩),
  (t!"Bigm", .cmd ⟨.right (.fixedLen 1), (some t!"Big")⟩),
  (t!"biggm", .cmd ⟨.right (.fixedLen 1), (some t!"bigg")⟩),
  (t!"Biggm", .cmd ⟨.right (.fixedLen 1), (some t!"Bigg")⟩),
  (t!"bigr", .cmd ⟨.right (.fixedLen 1), (some t!"big")⟩)]

/-- standard.typ, entries 121-180 of the standard package. -/
def stdChunk2 : HMap SugarItem := [
  (t!"Bigr", .cmd ⟨.right (.fixedLen 1), (some t!"Big")⟩),
  (t!"biggr", .cmd ⟨.right (.fixedLen 1), (some t!"bigg")⟩),
  (t!"Biggr", .cmd ⟨.right (.fixedLen 1), (some t!"Bigg")⟩),
  (t!"Huge", .symAlias []),
  (t!"normalsize", .symAlias []),
  (t!"huge", .symAlias []),
  (t!"small", .symAlias []),
  (t!"footnotesize", .symAlias []),
  (t!"Large", .symAlias []),
  (t!"LARGE", .symAlias []),
  (t!"scriptsize", .symAlias []),
  (t!"large", .symAlias []),
  (t!"tiny", .symAlias []),
  (t!"color", .cmdGreedy t!"#mitexcolor"),
  (t!"textcolor", .cmdGlob t!"{,b}tt" t!"#colortext"),
  (t!"colorbox", .cmdGlob t!"{,b}tt" t!"#mitexcolorbox"),
  (t!"limits", .cmd ⟨.left1, (some t!"limits")⟩),
  (t!"nolimits", .cmd ⟨.left1, (some t!"scripts")⟩),
  (t!"frac", .cmd ⟨.right (.fixedLen 2), none⟩),
  (t!"cfrac", .cmd ⟨.right (.fixedLen 2), none⟩),
  (t!"dfrac", .cmd ⟨.right (.fixedLen 2), none⟩),
  (t!"tfrac", .cmd ⟨.right (.fixedLen 2), none⟩),
  (t!"binom", .cmd ⟨.right (.fixedLen 2), none⟩),
  (t!"dbinom", .cmd ⟨.right (.fixedLen 2), none⟩),
  (t!"tbinom", .cmd ⟨.right (.fixedLen 2), none⟩),
  (t!"stackrel", .cmd ⟨.right (.fixedLen 2), none⟩),
  (t!"substack", .cmd ⟨.right (.fixedLen 1), none⟩),
  (t!"overset", .cmd ⟨.right (.fixedLen 2), none⟩),
  (t!"underset", .cmd ⟨.right (.fixedLen 2), none⟩),
  (t!"not", .cmd ⟨.right (.fixedLen 1), (some t!"mitexnot")⟩),
  (t!"cancel", .cmd ⟨.right (.fixedLen 1), none⟩),
  (t!"xcancel", .cmd ⟨.right (.fixedLen 1), none⟩),
  (t!"bcancel", .cmd ⟨.right (.fixedLen 1), none⟩),
  (t!"sout", .cmd ⟨.right (.fixedLen 1), none⟩),
  (t!"grave", .cmd ⟨.right (.fixedLen 1), (some t!"grave")⟩),
  (t!"acute", .cmd ⟨.right (.fixedLen 1), (some t!"acute")⟩),
  (t!"hat", .cmd ⟨.right (.fixedLen 1), (some t!"hat")⟩),
  (t!"widehat", .cmd ⟨.right (.fixedLen 1), (some t!"hat")⟩),
  (t!"tilde", .cmd ⟨.right (.fixedLen 1), (some t!"tilde")⟩),
  (t!"widetilde", .cmd ⟨.right (.fixedLen 1), (some t!"tilde")⟩),
  (t!"bar", .cmd ⟨.right (.fixedLen 1), (some t!"macron")⟩),
  (t!"breve", .cmd ⟨.right (.fixedLen 1), (some t!"breve")⟩),
  (t!"dot", .cmd ⟨.right (.fixedLen 1), (some t!"dot")⟩),
  (t!"ddot", .cmd ⟨.right (.fixedLen 1), (some t!"dot.double")⟩),
  (t!"dddot", .cmd ⟨.right (.fixedLen 1), (some t!"dot.triple")⟩),
  (t!"ddddot", .cmd ⟨.right (.fixedLen 1), (some t!"dot.quad")⟩),
  (t!"H", .cmd ⟨.right (.fixedLen 1), (some t!"acute.double")⟩),
  (t!"check", .cmd ⟨.right (.fixedLen 1), (some t!"caron")⟩),
  (t!"widecheck", .cmd ⟨.right (.fixedLen 1), (some t!"caron")⟩),
  (t!"u", .cmd ⟨.right (.fixedLen 1), (some t!"breve")⟩),
  (t!"v", .cmd ⟨.right (.fixedLen 1), (some t!"caron")⟩),
  (t!"r", .cmd ⟨.right (.fixedLen 1), (some t!"circle")⟩),
  (t!"vec", .cmd ⟨.right (.fixedLen 1), (some t!"arrow")⟩),
  (t!"overrightarrow", .cmd ⟨.right (.fixedLen 1), (some t!"arrow")⟩),
  (t!"overleftarrow", .cmd ⟨.right (.fixedLen 1), (some t!"arrow.l")⟩),
  (t!"overline", .command1),
  (t!"underline", .command1),
  (t!"overbrace", .cmd ⟨.right (.fixedLen 1), (some t!"mitexoverbrace")⟩),
  (t!"underbrace", .cmd ⟨.right (.fixedLen 1), (some t!"mitexunderbrace")⟩),
  (t!"overbracket", .cmd ⟨.right (.fixedLen 1), (some t!"mitexoverbracket")⟩)]

/-- standard.typ, entries 181-240 of the standard package. -/
def stdChunk3 : HMap SugarItem := [
  (t!"underbracket", .cmd ⟨.right (.fixedLen 1), (some t!"mitexunderbracket")⟩),
  (t!"boxed", .cmd ⟨.right (.fixedLen 1), none⟩),
  (t!"alpha", .symbol),
  (t!"beta", .symbol),
  (t!"gamma", .symbol),
  (t!"delta", .symbol),
  (t!"epsilon", .symAlias t!"epsilon.alt"),
  (t!"zeta", .symbol),
  (t!"eta", .symbol),
  (t!"theta", .symbol),
  (t!"iota", .symbol),
  (t!"kappa", .symbol),
  (t!"lambda", .symbol),
  (t!"mu", .symbol),
  (t!"nu", .symbol),
  (t!"xi", .symbol),
  (t!"omicron", .symbol),
  (t!"pi", .symbol),
  (t!"rho", .symbol),
  (t!"sigma", .symbol),
  (t!"tau", .symbol),
  (t!"upsilon", .symbol),
  (t!"phi", .symAlias t!"phi.alt"),
  (t!"chi", .symbol),
  (t!"psi", .symbol),
  (t!"omega", .symbol),
  (t!"Alpha", .symbol),
  (t!"Beta", .symbol),
  (t!"Gamma", .symbol),
  (t!"Delta", .symbol),
  (t!"Epsilon", .symbol),
  (t!"Zeta", .symbol),
  (t!"Eta", .symbol),
  (t!"Theta", .symbol),
  (t!"Iota", .symbol),
  (t!"Kappa", .symbol),
  (t!"Lambda", .symbol),
  (t!"Mu", .symbol),
  (t!"Nu", .symbol),
  (t!"Xi", .symbol),
  (t!"Omicron", .symbol),
  (t!"Pi", .symbol),
  (t!"Rho", .symbol),
  (t!"Sigma", .symbol),
  (t!"Tau", .symbol),
  (t!"Upsilon", .symbol),
  (t!"Phi", .symbol),
  (t!"Chi", .symbol),
  (t!"Psi", .symbol),
  (t!"Omega", .symbol),
  (t!"varbeta", .symAlias t!"beta.alt"),
  (t!"varepsilon", .symAlias t!"epsilon"),
  (t!"varkappa", .symAlias t!"kappa.alt"),
  (t!"varphi", .symAlias t!"phi"),
  (t!"varpi", .symAlias t!"pi.alt"),
  (t!"varrho", .symAlias t!"rho.alt"),
  (t!"varsigma", .symAlias t!"sigma.alt"),
  (t!"vartheta", .symAlias t!"theta.alt"),
  (t!"ell", .symbol),
  (t!"sin", .symbol)]

/-- standard.typ, entries 241-300 of the standard package. -/
def stdChunk4 : HMap SugarItem := [
  (t!"cos", .symbol),
  (t!"tan", .symbol),
  (t!"cot", .symbol),
  (t!"sec", .symbol),
  (t!"csc", .symbol),
  (t!"arcsin", .symbol),
  (t!"arccos", .symbol),
  (t!"arctan", .symbol),
  (t!"sinh", .symbol),
  (t!"cosh", .symbol),
  (t!"tanh", .symbol),
  (t!"coth", .symbol),
  (t!"ln", .symbol),
  (t!"log", .symbol),
  (t!"lg", .symbol),
  (t!"lim", .symbol),
  (t!"limsup", .symbol),
  (t!"liminf", .symbol),
  (t!"hom", .symbol),
  (t!"det", .symbol),
  (t!"exp", .symbol),
  (t!"deg", .symbol),
  (t!"gcd", .symbol),
  (t!"lcm", .symbol),
  (t!"dim", .symbol),
  (t!"ker", .symbol),
  (t!"arg", .symbol),
  (t!"Pr", .symbol),
  (t!"max", .symbol),
  (t!"min", .symbol),
  (t!"argmax", .symbol),
  (t!"argmin", .symbol),
  (t!"sup", .symbol),
  (t!"inf", .symbol),
  (t!"sum", .symbol),
  (t!"prod", .symAlias t!"product"),
  (t!"int", .symAlias t!"integral"),
  (t!"iint", .symAlias t!"integral.double"),
  (t!"iiint", .symAlias t!"integral.triple"),
  (t!"oint", .symAlias t!"integral.cont"),
  (t!"oiint", .symAlias t!"integral.surf"),
  (t!"oiiint", .symAlias t!"integral.vol"),
  (t!"mod", .symAlias t!"mod"),
  (t!"bmod", .symAlias t!"mod"),
  (t!"cdot", .symAlias t!"dot.c"),
  (t!"cdotp", .symAlias t!"dot.c"),
  (t!"sdot", .symAlias t!"dot.c"),
  (t!"times", .symAlias t!"times"),
  (t!"oplus", .symAlias t!"plus.o"),
  (t!"ominus", .symAlias t!"minus.o"),
  (t!"pm", .symAlias t!"plus.minus"),
  (t!"plusmn", .symAlias t!"plus.minus"),
  (t!"mp", .symAlias t!"minus.plus"),
  (t!"div", .symAlias t!"div"),
  (t!"star", .symAlias t!"star"),
  (t!"cap", .symAlias t!"inter"),
  (t!"cup", .symAlias t!"union"),
  (t!"in", .symAlias t!"in"),
  (t!"isin", .symAlias t!"in"),
  (t!"notin", .symAlias t!"in.not")]

/-- standard.typ, entries 301-360 of the standard package. -/
def stdChunk5 : HMap SugarItem := [
  (t!"subset", .symAlias t!"subset"),
  (t!"subseteq", .symAlias t!"subset.eq"),
  (t!"subsetneqq", .symAlias t!"⫋"),
  (t!"ne", .symAlias t!"!="),
  (t!"neq", .symAlias t!"!="),
  (t!"lt", .symAlias t!"<"),
  (t!"gt", .symAlias t!">"),
  (t!"le", .symAlias t!"<="),
  (t!"ge", .symAlias t!">="),
  (t!"leq", .symAlias t!"<="),
  (t!"geq", .symAlias t!">="),
  (t!"leqslant", .symAlias t!"lt.eq.slant"),
  (t!"geqslant", .symAlias t!"gt.eq.slant"),
  (t!"eqslantgtr", .symAlias t!"⪖"),
  (t!"eqslantless", .symAlias t!"⪕"),
  (t!"approx", .symAlias t!"approx"),
  (t!"leftarrow", .symAlias t!"<-"),
  (t!"rightarrow", .symAlias t!"->"),
  (t!"leftrightarrow", .symAlias t!"<->"),
  (t!"Leftarrow", .symAlias t!"arrow.l.double"),
  (t!"Rightarrow", .symAlias t!"=>"),
  (t!"Leftrightarrow", .symAlias t!"<=>"),
  (t!"larr", .symAlias t!"<-"),
  (t!"rarr", .symAlias t!"->"),
  (t!"lrarr", .symAlias t!"<->"),
  (t!"lArr", .symAlias t!"arrow.l.double"),
  (t!"rArr", .symAlias t!"=>"),
  (t!"lrArr", .symAlias t!"<=>"),
  (t!"Larr", .symAlias t!"arrow.l.double"),
  (t!"Rarr", .symAlias t!"=>"),
  (t!"Lrarr", .symAlias t!"<=>"),
  (t!"longleftarrow", .symAlias t!"<--"),
  (t!"longrightarrow", .symAlias t!"-->"),
  (t!"longleftrightarrow", .symAlias t!"<-->"),
  (t!"Longleftarrow", .symAlias t!"<=="),
  (t!"Longrightarrow", .symAlias t!"==>"),
  (t!"Longleftrightarrow", .symAlias t!"<==>"),
  (t!"to", .symAlias t!"->"),
  (t!"implies", .symAlias t!"==>"),
  (t!"impliedby", .symAlias t!"<=="),
  (t!"gets", .symAlias t!"<-"),
  (t!"mapsto", .symAlias t!"|->"),
  (t!"infty", .symAlias t!"oo"),
  (t!"lbrack", .symAlias t!"bracket.l"),
  (t!"rbrack", .symAlias t!"bracket.r"),
  (t!"lgroup", .symAlias t!"⟮"),
  (t!"rgroup", .symAlias t!"⟯"),
  (t!"llbracket", .symAlias t!"bracket.stroked.l"),
  (t!"rrbracket", .symAlias t!"bracket.stroked.r"),
  (t!"angle", .symAlias t!"angle"),
  (t!"lang", .symAlias t!"chevron.l"),
  (t!"rang", .symAlias t!"chevron.r"),
  (t!"langle", .symAlias t!"chevron.l"),
  (t!"rangle", .symAlias t!"chevron.r"),
  (t!"measuredangle", .symAlias t!"angle.arc"),
  (t!"sphericalangle", .symAlias t!"angle.spheric"),
  (t!"ast", .symAlias t!"ast"),
  (t!"checkmark", .symAlias t!"checkmark"),
  (t!"circledast", .symAlias t!"convolve.o"),
  (t!"backslash", .symAlias t!"backslash")]

/-- standard.typ, entries 361-420 of the standard package. -/
def stdChunk6 : HMap SugarItem := [
  (t!"dagger", .symAlias t!"dagger"),
  (t!"ddagger", .symAlias t!"dagger.double"),
  (t!"circleddash", .symAlias t!"dash.o"),
  (t!"odot", .symAlias t!"dot.o"),
  (t!"bigodot", .symAlias t!"dot.o.big"),
  (t!"boxdot", .symAlias t!"dot.square"),
  (t!"dots", .symAlias t!"dots.h"),
  (t!"cdots", .symAlias t!"dots.h.c"),
  (t!"ldots", .symAlias t!"dots.h"),
  (t!"vdots", .symAlias t!"dots.v"),
  (t!"ddots", .symAlias t!"dots.down"),
  (t!"dotsb", .symAlias t!"dots.h.c"),
  (t!"dotsc", .symAlias t!"dots.h"),
  (t!"dotsi", .symAlias t!"dots.h.c"),
  (t!"dotsm", .symAlias t!"dots.h.c"),
  (t!"dotso", .symAlias t!"dots.h"),
  (t!"sim", .symAlias t!"tilde"),
  (t!"simeq", .symAlias t!"tilde.eq"),
  (t!"backsimeq", .symAlias t!"tilde.eq.rev"),
  (t!"cong", .symAlias t!"tilde.equiv"),
  (t!"ncong", .symAlias t!"tilde.equiv.not"),
  (t!"nsim", .symAlias t!"tilde.not"),
  (t!"backsim", .symAlias t!"tilde.rev"),
  (t!"prime", .symAlias t!"prime"),
  (t!"backprime", .symAlias t!"prime.rev"),
  (t!"bigoplus", .symAlias t!"plus.o.big"),
  (t!"dotplus", .symAlias t!"plus.dot"),
  (t!"boxplus", .symAlias t!"plus.square"),
  (t!"boxminus", .symAlias t!"minus.square"),
  (t!"eqsim", .symAlias t!"minus.tilde"),
  (t!"otimes", .symAlias t!"times.o"),
  (t!"bigotimes", .symAlias t!"times.o.big"),
  (t!"divideontimes", .symAlias t!"times.div"),
  (t!"leftthreetimes", .symAlias t!"times.three.l"),
  (t!"rightthreetimes", .symAlias t!"times.three.r"),
  (t!"ltimes", .symAlias t!"times.l"),
  (t!"rtimes", .symAlias t!"times.r"),
  (t!"boxtimes", .symAlias t!"times.square"),
  (t!"triangleq", .symAlias t!"eq.delta"),
  (t!"curlyeqprec", .symAlias t!"eq.prec"),
  (t!"curlyeqsucc", .symAlias t!"eq.succ"),
  (t!"gtrdot", .symAlias t!"gt.dot"),
  (t!"gg", .symAlias t!"gt.double"),
  (t!"gtreqless", .symAlias t!"gt.eq.lt"),
  (t!"gtreqqless", .symAlias t!"⪌"),
  (t!"gtrapprox", .symAlias t!"gt.approx"),
  (t!"ngeq", .symAlias t!"gt.eq.not"),
  (t!"geqq", .symAlias t!"gt.equiv"),
  (t!"ngeqq", .symbol),
  (t!"gtrless", .symAlias t!"gt.lt"),
  (t!"gneqq", .symAlias t!"gt.nequiv"),
  (t!"ngtr", .symAlias t!"gt.not"),
  (t!"gnsim", .symAlias t!"gt.ntilde"),
  (t!"gtrsim", .symAlias t!"gt.tilde"),
  (t!"vartriangleright", .symAlias t!"gt.tri"),
  (t!"trianglerighteq", .symAlias t!"gt.tri.eq"),
  (t!"ntrianglerighteq", .symAlias t!"gt.tri.eq.not"),
  (t!"ntriangleright", .symAlias t!"gt.tri.not"),
  (t!"ggg", .symAlias t!"gt.triple"),
  (t!"lessdot", .symAlias t!"lt.dot")]

/-- standard.typ, entries 421-480 of the standard package. -/
def stdChunk7 : HMap SugarItem := [
  (t!"ll", .symAlias t!"lt.double"),
  (t!"lesseqgtr", .symAlias t!"lt.eq.gt"),
  (t!"nleq", .symAlias t!"lt.eq.not"),
  (t!"nleqslant", .symbol),
  (t!"leqq", .symAlias t!"lt.equiv"),
  (t!"nleqq", .symbol),
  (t!"lessgtr", .symAlias t!"lt.gt"),
  (t!"lneqq", .symAlias t!"lt.nequiv"),
  (t!"nless", .symAlias t!"lt.not"),
  (t!"lnsim", .symAlias t!"lt.ntilde"),
  (t!"lesssim", .symAlias t!"lt.tilde"),
  (t!"vartriangleleft", .symAlias t!"lt.tri"),
  (t!"trianglelefteq", .symAlias t!"lt.tri.eq"),
  (t!"ntrianglelefteq", .symAlias t!"lt.tri.eq.not"),
  (t!"ntriangleleft", .symAlias t!"lt.tri.not"),
  (t!"lll", .symAlias t!"lt.triple"),
  (t!"approxeq", .symAlias t!"approx.eq"),
  (t!"prec", .symAlias t!"prec"),
  (t!"precapprox", .symAlias t!"prec.approx"),
  (t!"preceq", .symAlias t!"prec.eq"),
  (t!"preccurlyeq", .symAlias t!"prec.eq"),
  (t!"npreceq", .symAlias t!"prec.eq.not"),
  (t!"precnapprox", .symAlias t!"prec.napprox"),
  (t!"nprec", .symAlias t!"prec.not"),
  (t!"precnsim", .symAlias t!"prec.ntilde"),
  (t!"precsim", .symAlias t!"prec.tilde"),
  (t!"succ", .symAlias t!"succ"),
  (t!"succapprox", .symAlias t!"succ.approx"),
  (t!"succeq", .symAlias t!"succ.eq"),
  (t!"succcurlyeq", .symAlias t!"succ.eq"),
  (t!"nsucceq", .symAlias t!"succ.eq.not"),
  (t!"succnapprox", .symAlias t!"succ.napprox"),
  (t!"nsucc", .symAlias t!"succ.not"),
  (t!"succnsim", .symAlias t!"succ.ntilde"),
  (t!"succsim", .symAlias t!"succ.tilde"),
  (t!"equiv", .symAlias t!"equiv"),
  (t!"propto", .symAlias t!"prop"),
  (t!"empty", .symAlias t!"nothing"),
  (t!"emptyset", .symAlias t!"nothing"),
  (t!"varnothing", .symAlias t!"nothing"),
  (t!"o", .symAlias t!"nothing"),
  (t!"O", .symAlias t!"nothing"),
  (t!"osplash", .symAlias t!"⊘"),
  (t!"setminus", .symAlias t!"without"),
  (t!"And", .symAlias t!"amp"),
  (t!"bigcirc", .symAlias t!"circle.stroked.big"),
  (t!"smallsetminus", .symAlias t!"without"),
  (t!"complement", .symAlias t!"complement"),
  (t!"ni", .symAlias t!"in.rev"),
  (t!"notni", .symAlias t!"in.rev.not"),
  (t!"Subset", .symAlias t!"subset.double"),
  (t!"nsubseteq", .symAlias t!"subset.eq.not"),
  (t!"nsubseteqq", .symbol),
  (t!"sqsubseteq", .symAlias t!"subset.eq.sq"),
  (t!"subsetneq", .symAlias t!"subset.neq"),
  (t!"supset", .symAlias t!"supset"),
  (t!"Supset", .symAlias t!"supset.double"),
  (t!"supseteq", .symAlias t!"supset.eq"),
  (t!"nsupseteq", .symAlias t!"supset.eq.not"),
  (t!"nsupseteqq", .symbol)]

/-- standard.typ, entries 481-540 of the standard package. -/
def stdChunk8 : HMap SugarItem := [
  (t!"sqsupseteq", .symAlias t!"supset.eq.sq"),
  (t!"supsetneq", .symAlias t!"supset.neq"),
  (t!"bigcup", .symAlias t!"union.big"),
  (t!"Cup", .symAlias t!"union.double"),
  (t!"uplus", .symAlias t!"union.plus"),
  (t!"biguplus", .symAlias t!"union.plus.big"),
  (t!"sqcup", .symAlias t!"union.sq"),
  (t!"bigsqcup", .symAlias t!"union.sq.big"),
  (t!"bigcap", .symAlias t!"inter.big"),
  (t!"Cap", .symAlias t!"inter.double"),
  (t!"sqcap", .symAlias t!"inter.sq"),
  (t!"partial", .symAlias t!"partial"),
  (t!"nabla", .symAlias t!"nabla"),
  (t!"coprod", .symAlias t!"product.co"),
  (t!"forall", .symAlias t!"forall"),
  (t!"exist", .symAlias t!"exists"),
  (t!"exists", .symAlias t!"exists"),
  (t!"nexists", .symAlias t!"exists.not"),
  (t!"top", .symAlias t!"top"),
  (t!"bot", .symAlias t!"bot"),
  (t!"neg", .symAlias t!"not"),
  (t!"lnot", .symAlias t!"not"),
  (t!"land", .symAlias t!"and"),
  (t!"wedge", .symAlias t!"and"),
  (t!"lor", .symAlias t!"or"),
  (t!"bigwedge", .symAlias t!"and.big"),
  (t!"curlywedge", .symAlias t!"and.curly"),
  (t!"vee", .symAlias t!"or"),
  (t!"bigvee", .symAlias t!"or.big"),
  (t!"curlyvee", .symAlias t!"or.curly"),
  (t!"models", .symAlias t!"models"),
  (t!"therefore", .symAlias t!"therefore"),
  (t!"because", .symAlias t!"because"),
  (t!"blacksquare", .symAlias t!"qed"),
  (t!"circ", .symAlias t!"compose"),
  (t!"multimap", .symAlias t!"multimap"),
  (t!"mid", .symAlias t!"divides"),
  (t!"nmid", .symAlias t!"divides.not"),
  (t!"wr", .symAlias t!"wreath"),
  (t!"parallel", .symAlias t!"parallel"),
  (t!"shortparallel", .symAlias t!"parallel"),
  (t!"nparallel", .symAlias t!"parallel.not"),
  (t!"perp", .symAlias t!"perp"),
  (t!"Join", .symAlias t!"join"),
  (t!"pounds", .symAlias t!"pound"),
  (t!"clubsuit", .symAlias t!"suit.club"),
  (t!"spadesuit", .symAlias t!"suit.spade"),
  (t!"bull", .symAlias t!"bullet"),
  (t!"bullet", .symAlias t!"bullet"),
  (t!"circledcirc", .symAlias t!"compose.o"),
  (t!"rhd", .symAlias t!"triangle.stroked.r"),
  (t!"lhd", .symAlias t!"triangle.stroked.l"),
  (t!"triangle", .symAlias t!"triangle.stroked.t"),
  (t!"bigtriangleup", .symAlias t!"triangle.stroked.t"),
  (t!"bigtriangledown", .symAlias t!"triangle.stroked.b"),
  (t!"triangleright", .symAlias t!"triangle.stroked.small.r"),
  (t!"triangledown", .symAlias t!"triangle.stroked.small.b"),
  (t!"triangleleft", .symAlias t!"triangle.stroked.small.l"),
  (t!"vartriangle", .symAlias t!"triangle.stroked.small.t"),
  (t!"square", .symAlias t!"square.stroked")]

/-- standard.typ, entries 541-600 of the standard package. -/
def stdChunk9 : HMap SugarItem := [
  (t!"Diamond", .symAlias t!"diamond.stroked"),
  (t!"diamond", .symAlias t!"diamond.stroked.small"),
  (t!"diamonds", .symAlias t!"diamond.stroked"),
  (t!"diamondsuit", .symAlias t!"diamond.stroked"),
  (t!"lozenge", .symAlias t!"lozenge.stroked"),
  (t!"blacklozenge", .symAlias t!"lozenge.filled"),
  (t!"bigstar", .symAlias t!"star.stroked"),
  (t!"longmapsto", .symAlias t!"arrow.r.long.bar"),
  (t!"nRightarrow", .symAlias t!"arrow.r.double.not"),
  (t!"hookrightarrow", .symAlias t!"arrow.r.hook"),
  (t!"looparrowright", .symAlias t!"arrow.r.loop"),
  (t!"nrightarrow", .symAlias t!"arrow.r.not"),
  (t!"rightsquigarrow", .symAlias t!"arrow.r.squiggly"),
  (t!"rightarrowtail", .symAlias t!"arrow.r.tail"),
  (t!"Rrightarrow", .symAlias t!"arrow.r.triple"),
  (t!"twoheadrightarrow", .symAlias t!"arrow.r.twohead"),
  (t!"nLeftarrow", .symAlias t!"arrow.l.double.not"),
  (t!"hookleftarrow", .symAlias t!"arrow.l.hook"),
  (t!"looparrowleft", .symAlias t!"arrow.l.loop"),
  (t!"nleftarrow", .symAlias t!"arrow.l.not"),
  (t!"leftarrowtail", .symAlias t!"arrow.l.tail"),
  (t!"Lleftarrow", .symAlias t!"arrow.l.triple"),
  (t!"twoheadleftarrow", .symAlias t!"arrow.l.twohead"),
  (t!"uparrow", .symAlias t!"arrow.t"),
  (t!"Uparrow", .symAlias t!"arrow.t.double"),
  (t!"downarrow", .symAlias t!"arrow.b"),
  (t!"Downarrow", .symAlias t!"arrow.b.double"),
  (t!"iff", .symAlias t!"arrow.l.r.double.long"),
  (t!"nLeftrightarrow", .symAlias t!"arrow.l.r.double.not"),
  (t!"nleftrightarrow", .symAlias t!"arrow.l.r.not"),
  (t!"leftrightsquigarrow", .symAlias t!"arrow.l.r.wave"),
  (t!"updownarrow", .symAlias t!"arrow.t.b"),
  (t!"Updownarrow", .symAlias t!"arrow.t.b.double"),
  (t!"nearrow", .symAlias t!"arrow.tr"),
  (t!"searrow", .symAlias t!"arrow.br"),
  (t!"nwarrow", .symAlias t!"arrow.tl"),
  (t!"swarrow", .symAlias t!"arrow.bl"),
  (t!"circlearrowleft", .symAlias t!"arrow.ccw"),
  (t!"curvearrowleft", .symAlias t!"arrow.ccw.half"),
  (t!"circlearrowright", .symAlias t!"arrow.cw"),
  (t!"curvearrowright", .symAlias t!"arrow.cw.half"),
  (t!"rightrightarrows", .symAlias t!"arrows.rr"),
  (t!"leftleftarrows", .symAlias t!"arrows.ll"),
  (t!"upuparrows", .symAlias t!"arrows.tt"),
  (t!"downdownarrows", .symAlias t!"arrows.bb"),
  (t!"leftrightarrows", .symAlias t!"arrows.lr"),
  (t!"rightleftarrows", .symAlias t!"arrows.rl"),
  (t!"rightharpoonup", .symAlias t!"harpoon.rt"),
  (t!"rightharpoondown", .symAlias t!"harpoon.rb"),
  (t!"leftharpoonup", .symAlias t!"harpoon.lt"),
  (t!"leftharpoondown", .symAlias t!"harpoon.lb"),
  (t!"upharpoonleft", .symAlias t!"harpoon.tl"),
  (t!"upharpoonright", .symAlias t!"harpoon.tr"),
  (t!"downharpoonleft", .symAlias t!"harpoon.bl"),
  (t!"downharpoonright", .symAlias t!"harpoon.br"),
  (t!"leftrightharpoons", .symAlias t!"harpoons.ltrb"),
  (t!"rightleftharpoons", .symAlias t!"harpoons.rtlb"),
  (t!"vdash", .symAlias t!"tack.r"),
  (t!"nvdash", .symAlias t!"tack.r.not"),
  (t!"vDash", .symAlias t!"tack.r.double")]

/-- standard.typ, entries 601-660 of the standard package. -/
def stdChunk10 : HMap SugarItem := [
  (t!"nvDash", .symAlias t!"tack.r.double.not"),
  (t!"dashv", .symAlias t!"tack.l"),
  (t!"hbar", .symAlias t!"planck"),
  (t!"hslash", .symAlias t!"planck"),
  (t!"Re", .symAlias t!"Re"),
  (t!"Im", .symAlias t!"Im"),
  (t!"AA", .symAlias t!"circle(A)"),
  (t!"aa", .symAlias t!"circle(A)"),
  (t!"Box", .symAlias t!"ballot"),
  (t!"N", .symAlias t!"NN"),
  (t!"natnums", .symAlias t!"NN"),
  (t!"natural", .symAlias t!"♮"),
  (t!"P", .symAlias t!"pilcrow"),
  (t!"Q", .symAlias t!"QQ"),
  (t!"R", .symAlias t!"RR"),
  (t!"Z", .symAlias t!"ZZ"),
  (t!"S", .symAlias t!"section"),
  (t!"sect", .symAlias t!"section"),
  (t!"AE", .symAlias t!"Æ"),
  (t!"ae", .symAlias t!"æ"),
  (t!"alef", .symAlias t!"aleph"),
  (t!"alefsym", .symAlias t!"aleph"),
  (t!"aleph", .symAlias t!"aleph"),
  (t!"amalg", .symAlias t!"product.co"),
  (t!"arctg", .symbol),
  (t!"asymp", .symAlias t!"≍"),
  (t!"ch", .symbol),
  (t!"circeq", .symAlias t!"≗"),
  (t!"colon", .symAlias t!"colon"),
  (t!"cth", .symbol),
  (t!"dag", .symAlias t!"dagger"),
  (t!"Dagger", .symAlias t!"dagger.double"),
  (t!"ddag", .symAlias t!"dagger.double"),
  (t!"daleth", .symAlias t!"ℸ"),
  (t!"sharp", .symAlias t!"♯"),
  (t!"flat", .symAlias t!"♭"),
  (t!"i", .symAlias t!"dotless.i"),
  (t!"j", .symAlias t!"dotless.j"),
  (t!"imath", .symAlias t!"dotless.i"),
  (t!"jmath", .symAlias t!"dotless.j"),
  (t!"smallsmile", .symAlias t!"⌣"),
  (t!"smile", .symAlias t!"⌣"),
  (t!"ss", .symAlias t!"ß"),
  (t!"surd", .symAlias t!"√"),
  (t!"tg", .symAlias t!"tg"),
  (t!"th", .symbol),
  (t!"weierp", .symAlias t!"℘"),
  (t!"wp", .symAlias t!"℘"),
  (t!"lbrace", .symAlias t!"\\{"),
  (t!"rbrace", .symAlias t!"\\}"),
  (t!"doteq", .symAlias t!"≐"),
  (t!"Vdash", .symAlias t!"⊩"),
  (t!"Doteq", .symAlias t!"≑"),
  (t!"Vvdash", .symAlias t!"⊪"),
  (t!"gnapprox", .symAlias t!"⪊"),
  (t!"ngeqslant", .symAlias t!"gt.eq.not"),
  (t!"precneqq", .symAlias t!"prec.nequiv"),
  (t!"gneq", .symAlias t!"⪈"),
  (t!"approxcolon", .symAlias t!"approx:"),
  (t!"approxcoloncolon", .symAlias t!"approx::")]

/-- standard.typ, entries 661-720 of the standard package. -/
def stdChunk11 : HMap SugarItem := [
  (t!"backepsilon", .symAlias t!"in.rev.small"),
  (t!"barwedge", .symAlias t!"⊼"),
  (t!"beth", .symAlias t!"beth"),
  (t!"between", .symAlias t!"≬"),
  (t!"bigdot", .symAlias t!"dot.o.big"),
  (t!"bigplus", .symAlias t!"plus.o.big"),
  (t!"bigtimes", .symAlias t!"times.o.big"),
  (t!"blacktriangle", .symAlias t!"triangle.filled.t"),
  (t!"blacktriangledown", .symAlias t!"triangle.filled.b"),
  (t!"blacktriangleleft", .symAlias t!"triangle.filled.l"),
  (t!"blacktriangleright", .symAlias t!"triangle.filled.r"),
  (t!"bowtie", .symAlias t!"⋈"),
  (t!"Bumpeq", .symAlias t!"≎"),
  (t!"bumpeq", .symAlias t!"≏"),
  (t!"centerdot", .symAlias t!"dot.op"),
  (t!"circledR", .symAlias t!"®"),
  (t!"circledS", .symAlias t!"Ⓢ"),
  (t!"clubs", .symAlias t!"suit.club"),
  (t!"cnums", .symAlias t!"CC"),
  (t!"Colonapprox", .symAlias t!"::approx"),
  (t!"colonapprox", .symAlias t!":approx"),
  (t!"coloncolon", .symAlias t!"::"),
  (t!"coloncolonapprox", .symAlias t!"::approx"),
  (t!"coloncolonequals", .symAlias t!"::="),
  (t!"coloncolonminus", .symAlias t!"::−"),
  (t!"coloncolonsim", .symAlias t!"::tilde.op"),
  (t!"Coloneq", .symAlias t!"::−"),
  (t!"coloneq", .symAlias t!":−"),
  (t!"colonequals", .symAlias t!":="),
  (t!"Coloneqq", .symAlias t!"::="),
  (t!"coloneqq", .symAlias t!":="),
  (t!"colonminus", .symAlias t!":−"),
  (t!"Colonsim", .symAlias t!"::tilde.op"),
  (t!"colonsim", .symAlias t!":tilde.op"),
  (t!"Complex", .symAlias t!"CC"),
  (t!"copyright", .symAlias t!"copyright"),
  (t!"ctg", .symAlias t!"ctg"),
  (t!"Darr", .symAlias t!"arrow.b.double"),
  (t!"dArr", .symAlias t!"arrow.b.double"),
  (t!"darr", .symAlias t!"arrow.b"),
  (t!"dashleftarrow", .symAlias t!"arrow.l.dash"),
  (t!"dashrightarrow", .symAlias t!"arrow.r.dash"),
  (t!"dbcolon", .symAlias t!"::"),
  (t!"degree", .symAlias t!"degree"),
  (t!"digamma", .symAlias t!"ϝ"),
  (t!"diagdown", .symAlias t!"╲"),
  (t!"diagup", .symAlias t!"╱"),
  (t!"doteqdot", .symAlias t!"≑"),
  (t!"doublebarwedge", .symAlias t!"⩞"),
  (t!"doublecap", .symAlias t!"inter.double"),
  (t!"doublecup", .symAlias t!"union.double"),
  (t!"eqcirc", .symAlias t!"≖"),
  (t!"Eqcolon", .symAlias t!"−::"),
  (t!"eqcolon", .symAlias t!"dash.colon"),
  (t!"Eqqcolon", .symAlias t!"=::"),
  (t!"eqqcolon", .symAlias t!"=:"),
  (t!"equalscolon", .symAlias t!"=:"),
  (t!"equalscoloncolon", .symAlias t!"=::"),
  (t!"eth", .symAlias t!"ð"),
  (t!"fallingdotseq", .symAlias t!"≒")]

/-- standard.typ, entries 721-780 of the standard package. -/
def stdChunk12 : HMap SugarItem := [
  (t!"Finv", .symAlias t!"Ⅎ"),
  (t!"frown", .symAlias t!"⌢"),
  (t!"Game", .symAlias t!"⅁"),
  (t!"gggtr", .symAlias t!">>>"),
  (t!"gimel", .symAlias t!"gimel"),
  (t!"Harr", .symAlias t!"<=>"),
  (t!"hArr", .symAlias t!"<=>"),
  (t!"harr", .symAlias t!"<->"),
  (t!"hearts", .symAlias t!"♡"),
  (t!"heartsuit", .symAlias t!"♡"),
  (t!"image", .symAlias t!"Im"),
  (t!"imageof", .symAlias t!"⊷"),
  (t!"infin", .symAlias t!"infinity"),
  (t!"intercal", .symAlias t!"⊺"),
  (t!"intop", .symAlias t!"integral"),
  (t!"lBrace", .symAlias t!"⦃"),
  (t!"ldotp", .symAlias t!"."),
  (t!"leadsto", .symAlias t!"arrow.r.squiggly"),
  (t!"lessapprox", .symAlias t!"⪅"),
  (t!"lesseqqgtr", .symAlias t!"⪋"),
  (t!"llcorner", .symAlias t!"⌞"),
  (t!"llless", .symAlias t!"<<<"),
  (t!"lnapprox", .symAlias t!"⪉"),
  (t!"lneq", .symAlias t!"⪇"),
  (t!"lrcorner", .symAlias t!"⌟"),
  (t!"lq", .symAlias t!"quote.l.single"),
  (t!"Lsh", .symAlias t!"↰"),
  (t!"maltese", .symAlias t!"maltese"),
  (t!"mathellipsis", .symAlias t!"..."),
  (t!"mathsterling", .symAlias t!"pound"),
  (t!"mho", .symAlias t!"Omega.inv"),
  (t!"minuscolon", .symAlias t!"dash.colon"),
  (t!"minuscoloncolon", .symAlias t!"−::"),
  (t!"minuso", .symAlias t!"⦵"),
  (t!"newline", .symAlias t!"\\"),
  (t!"nVDash", .symAlias t!"⊯"),
  (t!"nVdash", .symAlias t!"⊮"),
  (t!"OE", .symAlias t!"Œ"),
  (t!"oe", .symAlias t!"œ"),
  (t!"origof", .symAlias t!"⊶"),
  (t!"oslash", .symAlias t!"⊘"),
  (t!"owns", .symAlias t!"in.rev"),
  (t!"pitchfork", .symAlias t!"⋔"),
  (t!"ratio", .symAlias t!":"),
  (t!"rBrace", .symAlias t!"⦄"),
  (t!"real", .symAlias t!"Re"),
  (t!"Reals", .symAlias t!"RR"),
  (t!"reals", .symAlias t!"RR"),
  (t!"restriction", .symAlias t!"harpoon.tr"),
  (t!"risingdotseq", .symAlias t!"≓"),
  (t!"rmoustache", .symAlias t!"⎱"),
  (t!"rq", .symAlias t!"'"),
  (t!"Rsh", .symAlias t!"↱"),
  (t!"simcolon", .symAlias t!"tilde.op:"),
  (t!"simcoloncolon", .symAlias t!"tilde.op::"),
  (t!"spades", .symAlias t!"suit.spade"),
  (t!"sqsubset", .symAlias t!"subset.sq"),
  (t!"sqsupset", .symAlias t!"supset.sq"),
  (t!"sub", .symAlias t!"subset"),
  (t!"sube", .symAlias t!"subset.eq")]

/-- standard.typ, entries 781-840 of the standard package. -/
def stdChunk13 : HMap SugarItem := [
  (t!"subseteqq", .symAlias t!"⫅"),
  (t!"succneqq", .symAlias t!"succ.nequiv"),
  (t!"supe", .symAlias t!"supset.eq"),
  (t!"supseteqq", .symAlias t!"⫆"),
  (t!"supsetneqq", .symAlias t!"⫌"),
  (t!"textasciitilde", .symAlias t!"~"),
  (t!"textasciicircum", .symAlias t!"\\^"),
  (t!"textbackslash", .symAlias t!"\\\\"),
  (t!"textbar", .symAlias t!"\\|"),
  (t!"textbardbl", .symAlias t!"‖"),
  (t!"textbraceleft", .symAlias t!"{"),
  (t!"textbraceright", .symAlias t!"}"),
  (t!"textdagger", .symAlias t!"dagger"),
  (t!"textdaggerdbl", .symAlias t!"dagger.double"),
  (t!"textdegree", .symAlias t!"degree"),
  (t!"textdollarsign", .symAlias t!"\\$"),
  (t!"textellipsis", .symAlias t!"..."),
  (t!"textemdash", .symAlias t!"---"),
  (t!"textendash", .symAlias t!"--"),
  (t!"textgreater", .symAlias t!"gt"),
  (t!"textless", .symAlias t!"lt"),
  (t!"textquotedblleft", .symAlias t!"quote.l.double"),
  (t!"textquotedblright", .symAlias t!"quote.r.double"),
  (t!"textquoteleft", .symAlias t!"quote.l.single"),
  (t!"textquoteright", .symAlias t!"quote.r.single"),
  (t!"textregistered", .symAlias t!"®"),
  (t!"textperthousand", .symAlias t!"permille"),
  (t!"textsterling", .symAlias t!"pound"),
  (t!"textunderscore", .symAlias t!"\\_"),
  (t!"thetasym", .symAlias t!"theta.alt"),
  (t!"Uarr", .symAlias t!"arrow.t.double"),
  (t!"uArr", .symAlias t!"arrow.t.double"),
  (t!"uarr", .symAlias t!"arrow.t"),
  (t!"ulcorner", .symAlias t!"⌜"),
  (t!"unlhd", .symAlias t!"lt.tri.eq"),
  (t!"unrhd", .symAlias t!"gt.tri.eq"),
  (t!"urcorner", .symAlias t!"⌝"),
  (t!"varpropto", .symAlias t!"prop"),
  (t!"varsubsetneq", .symAlias t!"subset.neq"),
  (t!"varsubsetneqq", .symAlias t!"⫋"),
  (t!"varsupsetneq", .symAlias t!"supset.neq"),
  (t!"varsupsetneqq", .symAlias t!"⫌"),
  (t!"vcentcolon", .symAlias t!":"),
  (t!"veebar", .symAlias t!"⊻"),
  (t!"yen", .symAlias t!"yen"),
  (t!"arcctg", .symbol),
  (t!"begingroup", .symAlias []),
  (t!"cosec", .symbol),
  (t!"cotg", .symbol),
  (t!"injlim", .symbol),
  (t!"mathclap", .cmd ⟨.right (.fixedLen 1), none⟩),
  (t!"mathring", .cmd ⟨.right (.fixedLen 1), none⟩),
  (t!"nobreak", .symAlias []),
  (t!"noexpand", .symAlias []),
  (t!"overgroup", .cmd ⟨.right (.fixedLen 1), none⟩),
  (t!"undergroup", .cmd ⟨.right (.fixedLen 1), none⟩),
  (t!"overleftharpoon", .cmd ⟨.right (.fixedLen 1), none⟩),
  (t!"overleftrightarrow", .cmd ⟨.right (.fixedLen 1), none⟩),
  (t!"overlinesegment", .cmd ⟨.right (.fixedLen 1), none⟩),
  (t!"overrightharpoon", .cmd ⟨.right (.fixedLen 1), none⟩)]

/-- standard.typ, entries 841-900 of the standard package. -/
def stdChunk14 : HMap SugarItem := [
  (t!"underbar", .cmd ⟨.right (.fixedLen 1), none⟩),
  (t!"plim", .symbol),
  (t!"projlim", .symbol),
  (t!"raisebox", .cmd ⟨.right (.fixedLen 2), none⟩),
  (t!"sh", .symbol),
  (t!"smallint", .symbol),
  (t!"thickapprox", .symbol),
  (t!"thicksim", .symbol),
  (t!"varDelta", .symbol),
  (t!"varGamma", .symbol),
  (t!"varLambda", .symbol),
  (t!"varOmega", .symbol),
  (t!"varPhi", .symbol),
  (t!"varPi", .symbol),
  (t!"varPsi", .symbol),
  (t!"varSigma", .symbol),
  (t!"varTheta", .symbol),
  (t!"varUpsilon", .symbol),
  (t!"varXi", .symbol),
  (t!"xleftarrow", .cmd ⟨.right (.fixedLen 1), none⟩),
  (t!"xrightarrow", .cmd ⟨.right (.fixedLen 1), none⟩),
  (t!"xLeftarrow", .cmd ⟨.right (.fixedLen 1), none⟩),
  (t!"xRightarrow", .cmd ⟨.right (.fixedLen 1), none⟩),
  (t!"xleftrightarrow", .cmd ⟨.right (.fixedLen 1), none⟩),
  (t!"xLeftrightarrow", .cmd ⟨.right (.fixedLen 1), none⟩),
  (t!"xhookleftarrow", .cmd ⟨.right (.fixedLen 1), none⟩),
  (t!"xhookrightarrow", .cmd ⟨.right (.fixedLen 1), none⟩),
  (t!"xtwoheadleftarrow", .cmd ⟨.right (.fixedLen 1), none⟩),
  (t!"xtwoheadrightarrow", .cmd ⟨.right (.fixedLen 1), none⟩),
  (t!"xleftharpoonup", .cmd ⟨.right (.fixedLen 1), none⟩),
  (t!"xrightharpoonup", .cmd ⟨.right (.fixedLen 1), none⟩),
  (t!"xleftharpoondown", .cmd ⟨.right (.fixedLen 1), none⟩),
  (t!"xrightharpoondown", .cmd ⟨.right (.fixedLen 1), none⟩),
  (t!"xleftrightharpoons", .cmd ⟨.right (.fixedLen 1), none⟩),
  (t!"xrightleftharpoons", .cmd ⟨.right (.fixedLen 1), none⟩),
  (t!"xtofrom", .cmd ⟨.right (.fixedLen 1), none⟩),
  (t!"xmapsto", .cmd ⟨.right (.fixedLen 1), none⟩),
  (t!"xlongequal", .cmd ⟨.right (.fixedLen 1), none⟩),
  (t!"pmod", .cmd ⟨.right (.fixedLen 1), none⟩),
  (t!"pod", .cmd ⟨.right (.fixedLen 1), none⟩),
  (t!"set", .cmd ⟨.right (.fixedLen 1), none⟩),
  (t!"Set", .cmd ⟨.right (.fixedLen 1), none⟩),
  (t!"bra", .cmd ⟨.right (.fixedLen 1), none⟩),
  (t!"Bra", .cmd ⟨.right (.fixedLen 1), none⟩),
  (t!"ket", .cmd ⟨.right (.fixedLen 1), none⟩),
  (t!"Ket", .cmd ⟨.right (.fixedLen 1), none⟩),
  (t!"braket", .cmd ⟨.right (.fixedLen 1), none⟩),
  (t!"Braket", .cmd ⟨.right (.fixedLen 1), none⟩),
  (t!"fbox", .cmd ⟨.right (.fixedLen 1), none⟩),
  (t!"hbox", .cmd ⟨.right (.fixedLen 1), none⟩),
  (t!"matrix", .env ⟨.none, .isMatrix, none⟩),
  (t!"pmatrix", .env ⟨.none, .isMatrix, none⟩),
  (t!"bmatrix", .env ⟨.none, .isMatrix, none⟩),
  (t!"Bmatrix", .env ⟨.none, .isMatrix, none⟩),
  (t!"vmatrix", .env ⟨.none, .isMatrix, none⟩),
  (t!"Vmatrix", .env ⟨.none, .isMatrix, none⟩),
  (t!"smallmatrix", .env ⟨.none, .isMatrix, none⟩),
  (t!"array", .env ⟨(.fixedLen 1), .isMatrix, (some t!"mitexarray")⟩),
  (t!"subarray", .env ⟨(.fixedLen 1), .isMatrix, (some t!"mitexarray")⟩),
  (t!"aligned", .env ⟨.none, .isMath, (some t!"aligned")⟩)]

/-- standard.typ, entries 901-960 of the standard package. -/
def stdChunk15 : HMap SugarItem := [
  (t!"alignedat", .env ⟨(.fixedLen 1), .isMath, (some t!"alignedat")⟩),
  (t!"align", .env ⟨.none, .isMath, (some t!"aligned")⟩),
  (t!"align*", .env ⟨.none, .isMath, (some t!"aligned")⟩),
  (t!"equation", .env ⟨.none, .isMath, (some t!"aligned")⟩),
  (t!"equation*", .env ⟨.none, .isMath, (some t!"aligned")⟩),
  (t!"split", .env ⟨.none, .isMath, (some t!"aligned")⟩),
  (t!"gather", .env ⟨.none, .isMath, (some t!"aligned")⟩),
  (t!"gather*", .env ⟨.none, .isMath, (some t!"aligned")⟩),
  (t!"gathered", .env ⟨.none, .isMath, (some t!"aligned")⟩),
  (t!"cases", .env ⟨.none, .isCases, (some t!"cases")⟩),
  (t!"rcases", .env ⟨.none, .isCases, (some t!"rcases")⟩),
  (t!"notag", .symAlias []),
  (t!"relax", .symAlias []),
  (t!"cr", .symAlias []),
  (t!"expandafter", .symAlias []),
  (t!"hskip", .symAlias []),
  (t!"mskip", .symAlias []),
  (t!"kern", .symAlias []),
  (t!"mkern", .symAlias []),
  (t!"mathstrut", .symAlias []),
  (t!"nonumber", .symAlias []),
  (t!"KaTeX", .symbol),
  (t!"LaTeX", .symbol),
  (t!"TeX", .symbol),
  (t!"middle", .cmd ⟨.right (.fixedLen 1), none⟩),
  (t!"operatorname", .cmd ⟨.right (.fixedLen 1), none⟩),
  (t!"operatornamewithlimits", .cmd ⟨.right (.fixedLen 1), (some t!"operatornamewithlimits")⟩),
  (t!"operatorname*", .cmd ⟨.right (.fixedLen 1), (some t!"operatornamewithlimits")⟩),
  (t!"vspace", .cmd ⟨.right (.fixedLen 1), none⟩),
  (t!"hspace", .cmd ⟨.right (.fixedLen 1), none⟩),
  (t!"text", .cmd ⟨.right (.fixedLen 1), (some t!"#textmath")⟩),
  (t!"textmd", .cmd ⟨.right (.fixedLen 1), (some t!"#textmd")⟩),
  (t!"textnormal", .cmd ⟨.right (.fixedLen 1), (some t!"#textnormal")⟩),
  (t!"textbf", .cmd ⟨.right (.fixedLen 1), (some t!"#textbf")⟩),
  (t!"textit", .cmd ⟨.right (.fixedLen 1), (some t!"#textit")⟩),
  (t!"textrm", .cmd ⟨.right (.fixedLen 1), (some t!"#textrm")⟩),
  (t!"textup", .cmd ⟨.right (.fixedLen 1), (some t!"#textup")⟩),
  (t!"textsf", .cmd ⟨.right (.fixedLen 1), (some t!"#textsf")⟩),
  (t!"texttt", .cmd ⟨.right (.fixedLen 1), (some t!"#texttt")⟩),
  (t!"over", .cmdInfix t!"frac"),
  (t!"atop", .cmdInfix t!"atop"),
  (t!"choose", .cmdInfix t!"binom"),
  (t!"brace", .cmdInfix t!"brace"),
  (t!"brack", .cmdInfix t!"brack"),
  (t!"sqrt", .cmdGlob t!"{,b}t" t!"mitexsqrt"),
  (t!"def", .symAlias []),
  (t!"newcommand", .symAlias []),
  (t!"newcommand*", .symAlias []),
  (t!"renewcommand", .symAlias []),
  (t!"renewcommand*", .symAlias []),
  (t!"DeclareRobustCommand", .symAlias []),
  (t!"DeclareRobustCommand*", .symAlias []),
  (t!"DeclareTextCommand", .symAlias []),
  (t!"DeclareTextCommandDefault", .symAlias []),
  (t!"ProvideTextCommand", .symAlias []),
  (t!"ProvideTextCommandDefault", .symAlias []),
  (t!"providecommand", .symAlias []),
  (t!"providecommand*", .symAlias []),
  (t!"newenvironment", .symAlias []),
  (t!"newenvironment*", .symAlias [])]

/-- standard.typ, entries 961-1006 of the standard package. -/
def stdChunk16 : HMap SugarItem := [
  (t!"renewenvironment", .symAlias []),
  (t!"renewenvironment*", .symAlias []),
  (t!"AtEndOfClass", .symAlias []),
  (t!"AtEndOfPackage", .symAlias []),
  (t!"AtBeginDocument", .symAlias []),
  (t!"AtEndDocument", .symAlias []),
  (t!"@ifstar", .symAlias []),
  (t!"if", .symAlias []),
  (t!"ifdim", .symAlias []),
  (t!"iffalse", .symAlias []),
  (t!"ifnum", .symAlias []),
  (t!"ifodd", .symAlias []),
  (t!"iftrue", .symAlias []),
  (t!"ifx", .symAlias []),
  (t!"DeclareOption", .symAlias []),
  (t!"DeclareOption*", .symAlias []),
  (t!"CurrentOption", .symAlias []),
  (t!"ProcessOptions", .symAlias []),
  (t!"ExecuteOptions", .symAlias []),
  (t!"RequirePackage", .symAlias []),
  (t!"RequirePackageWithOptions", .symAlias []),
  (t!"documentclass", .symAlias []),
  (t!"PassOptionsToClass", .symAlias []),
  (t!"PassOptionsToPackage", .symAlias []),
  (t!"IfFileExists", .symAlias []),
  (t!"InputIfFileExists", .symAlias []),
  (t!"ProvidesFile", .symAlias []),
  (t!"ignorespaces", .symAlias []),
  (t!"ignorespacesafterend", .symAlias []),
  (t!"ifvoid", .symAlias []),
  (t!"ifinner", .symAlias []),
  (t!"ifhbox", .symAlias []),
  (t!"ifvbox", .symAlias []),
  (t!"ifhmode", .symAlias []),
  (t!"ifmmode", .symAlias []),
  (t!"ifvmode", .symAlias []),
  (t!"CheckCommand", .symAlias []),
  (t!"CheckCommand*", .symAlias []),
  (t!"newcounter", .symAlias []),
  (t!"newlength", .symAlias []),
  (t!"newsavebox", .symAlias []),
  (t!"newtheorem", .symAlias []),
  (t!"newfont", .symAlias []),
  (t!"ProvidesClass", .symAlias []),
  (t!"LoadClass", .symAlias []),
  (t!"LoadClassWithOptions", .symAlias [])]

/-- standard.typ:91-1186: the package `latex-std`. -/
def standardPackage : HMap SugarItem :=
  stdChunk0 ++ stdChunk1 ++ stdChunk2 ++ stdChunk3 ++ stdChunk4 ++ stdChunk5 ++ stdChunk6 ++ stdChunk7 ++ stdChunk8 ++ stdChunk9 ++ stdChunk10 ++ stdChunk11 ++ stdChunk12 ++ stdChunk13 ++ stdChunk14 ++ stdChunk15 ++ stdChunk16

/-- crates/mitex-spec-gen/src/lib.rs:11-16 `DEFAULT_SPEC`: the standard package, canonicalised; as a map
(its entries have distinct names, theorem `standardPackage_nodup`). -/
def defaultItems : HMap SpecItem := standardPackage.map fun e => (e.1, e.2.canon)

/-- `DEFAULT_SPEC` as a lookup function. -/
def defaultSpec : CommandSpec := specOfMap defaultItems

end Mitex
