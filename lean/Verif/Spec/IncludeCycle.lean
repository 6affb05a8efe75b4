import Verif.Spec.Include
/-
Specification of files that include each other without end.
-/
namespace Hastur

/-- Reading goes on from the place `i`; after lines that can be read comes an include line, and the file `g` is the first
one named on it that remains to be read, in the state `st2`.  A rule that is open at the include line is completed first. -/
inductive ComesTo (fs : Fs) (P : Block) : Span → PState → St → (g : Str) → (st2 : St) → Prop
  | line {i : Span} {t rest : List LChar} {p p' : PState} {st st' st2 : St} {g : Str} : i.At P t → t ≠ [] →
      LineGives fs P i p st rest p' st' → (∀ j : Span, j.At P rest → ComesTo fs P j p' st' g st2) →
      ComesTo fs P i p st g st2
  | include_ {i : Span} {t line rest args u : List LChar} {soft : Bool} {p : PState} {st st2 : St} {es : List Expr}
      {vs pre post : List Str} {g : Str} : Ready P i t line rest p st → IncludeText line soft args → ¬ VarLike line →
      Reads args (.ok es) → Expands st.env es u vs → IncludeNames u (pre ++ g :: post) →
      Includes fs soft pre (st.interned vs) none st2 → ComesTo fs P i p st g st2
  | afterRule {i : Span} {t line rest args u : List LChar} {soft : Bool} {p p1 : PState} {st st1 st2 : St} {es : List Expr}
      {vs pre post : List Str} {g : Str} : AtLine P i t line rest p st → p.ignoring = false →
      (textOf t).head? ≠ some st.commandChar → p.closeRule st = .ok (p1, st1) → st1.WF →
      IncludeText line soft args → ¬ VarLike line → Reads args (.ok es) → Expands st1.env es u vs →
      IncludeNames u (pre ++ g :: post) → Includes fs soft pre (st1.interned vs) none st2 → ComesTo fs P i p st g st2

/-- While the file `f` is read from the state `st`, the file `g` is to be read from the state `st2`.  The block `b` holds
the text of the file. -/
def FileComesTo (fs : Fs) (f : Str) (st : St) (g : Str) (st2 : St) : Prop :=
  ∃ s b, fs f = .text s ∧ AsciiS s ∧ fileBlock (st.names.internFile f).1 s = .ok b ∧
    ComesTo fs b b.span PState.new { st with names := (st.names.internFile f).2 } g st2

/-- The file begins with an include line that names `g` first; the line contains no escapes and no references. -/
def BeginsWithInclude (fs : Fs) (f g : Str) : Prop :=
  ∃ kw args rest : Str, fs f = .text ((kw ++ args) ++ '\n' :: rest) ∧ AsciiS ((kw ++ args) ++ '\n' :: rest) ∧
    '#' ∉ (kw ++ args) ++ '\n' :: rest ∧
    kw.map lower ∈ ["include".toList, "sinclude".toList, "-include".toList] ∧
    (∀ c ∈ ['\n', '\\', '$', '=', Char.ofNat 0], c ∉ args) ∧
    ∃ post, ∀ l, (wordsOf (locate l args)).map textOf = g :: post

end Hastur
