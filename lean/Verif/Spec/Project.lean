import Verif.Spec.Program
import Verif.Spec.Include
import Verif.Spec.Comment
import Verif.Spec.EvalLine
/-
Specification of makefiles that include other makefiles, and of the effects of `eval`.
-/
namespace Hastur

mutual

/-- The text `t` of a makefile leads from the state of affairs `m` to one in `M`.  The location of a character tells from
which file it is, by a handle; which handle an included file gets is left open, so there may be several outcomes.  `ends`
restricts how an included file or an evaluated text may end, and what may stand before a line that calls `eval`. -/
inductive Means (fs : Fs) (c : Char) (ok : List Branch → Branch → Prop) (ends : MakeState → Prop) :
    MakeState → (t : List LChar) → (M : MakeState → Prop) → Prop
  | nil {m : MakeState} {M : MakeState → Prop} : M m → Means fs c ok ends m [] M
  /-- any line that `LineMeans` describes: assignments, rules, recipes, conditionals -/
  | line {m m1 : MakeState} {M : MakeState → Prop} {t rest : List LChar} : LineMeans c ok m t rest m1 →
      Means fs c ok ends m1 rest M → Means fs c ok ends m t M
  /-- a definition of a variable by several lines -/
  | define {m : MakeState} {M : MakeState → Prop} {t line body rest : List LChar} {s : Str} {ty : AssignType}
      {es : List Expr} {v : Vars} : AllTaken m.branches → (m.current = none ∨ (textOf t).head? ≠ some c) →
      Logical t line body → DefineHead m.vars.env line s ty → DefineBody Begins 1 body es rest →
      DefineSets m.vars s ty es v → Means fs c ok ends { m.close with vars := v } rest M → Means fs c ok ends m t M
  /-- `include names` or `-include names`: the current rule is complete, and the files are read one after the other -/
  | include_ {m : MakeState} {M1 M : MakeState → Prop} {t line rest args u : List LChar} {soft : Bool} {es : List Expr}
      {vs : List Str} : AllTaken m.branches → (m.current = none ∨ (textOf t).head? ≠ some c) → Logical t line rest →
      IncludeText line soft args → ¬ VarLike line → Reads args (.ok es) → Expands m.vars.env es u vs → PlainNames u →
      Reading fs c ok ends soft ((wordsOf u).map textOf) m.close M1 → (∀ m1, M1 m1 → Means fs c ok ends m1 rest M) →
      Means fs c ok ends m t M
  /-- `$(eval arg)` on a line of its own, where `arg` is a text without references: the current rule is complete, and the
  argument is read like a makefile -/
  | eval {m : MakeState} {M1 M : MakeState → Prop} {t line rest arg : List LChar} : AllTaken m.branches →
      (m.current = none ∨ (textOf t).head? ≠ some c) → c ≠ '$' → ends m → Physical t line rest → EvalLine line arg →
      ¬ VarLike line → Free '$' arg → Means fs c ok ends ⟨m.close.vars, m.close.rules, [], none⟩ arg M1 →
      (∀ m1, M1 m1 → m1.branches = [] ∧ ends m1) →
      (∀ m1, M1 m1 → Means fs c ok ends { m.close with vars := m1.close.vars, rules := m1.close.rules } rest M) →
      Means fs c ok ends m t M

/-- Reading the files with the given names leads from the state of affairs `m` to one in `M`.  A file starts with the
variables and rules there are, and outside conditionals and rules; at its end its last rule is complete. -/
inductive Reading (fs : Fs) (c : Char) (ok : List Branch → Branch → Prop) (ends : MakeState → Prop) :
    (soft : Bool) → (names : List Str) → MakeState → (M : MakeState → Prop) → Prop
  | done {soft : Bool} {m : MakeState} {M : MakeState → Prop} : M m → Reading fs c ok ends soft [] m M
  | file {soft : Bool} {f s : Str} {rest : List Str} {m : MakeState} {body : FileName → List LChar}
      {M1 : FileName → MakeState → Prop} {M : MakeState → Prop} : fs f = .text s → AsciiS s →
      (∀ h, Headed (locate (.source 1 1 h) s) (body h)) →
      (∀ h, Means fs c ok ends ⟨m.vars, m.rules, [], none⟩ (body h) (M1 h)) →
      (∀ h m1, M1 h m1 → m1.branches = [] ∧ ends m1) →
      (∀ h m1, M1 h m1 → Reading fs c ok ends soft rest { m with vars := m1.close.vars, rules := m1.close.rules } M) →
      Reading fs c ok ends soft (f :: rest) m M
  /-- `-include` skips files that do not exist -/
  | skip {f : Str} {rest : List Str} {m : MakeState} {M : MakeState → Prop} : fs f = .missing →
      Reading fs c ok ends true rest m M → Reading fs c ok ends true (f :: rest) m M

end

end Hastur
