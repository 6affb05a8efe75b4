import Verif.Spec.Project
import Verif.Spec.Trailed
/-
Specification of what the program makes of makefiles, in place of `LineMeans` and `Means` (C42, C43, C44, C62).
-/
namespace Hastur

/-- What the program does with the first line of the text `t`; `rest` follows it.  There is a switch `on` besides the open
conditionals, and lines that are no conditionals take effect if it is on; `ifeq`, `ifneq` and `else` set it.  There are two
differences from what makefiles mean:
* `endif` leaves the switch alone: after a conditional that ends with a branch not taken, it stays off;
* commands are added to the open rule even if the switch is off. -/
inductive LineDoes (c : Char) : (on : Bool) → MakeState → (t rest : List LChar) → (on' : Bool) → MakeState → Prop
  /-- a line that is no conditional, with the switch on: it does what it means where all conditionals are in their taken
  branch -/
  | effective {m m1 : MakeState} {bs : List Branch} {t rest : List LChar} : AllTaken m.branches →
      LineMeans c (fun _ _ => True) m t rest m1 → m1.branches = m.branches →
      LineDoes c true { m with branches := bs } t rest true { m1 with branches := bs }
  /-- an empty line -/
  | blank {on : Bool} {m : MakeState} {t rest : List LChar} : t ≠ [] → Logical t [] rest →
      (m.current = none ∨ (textOf t).head? ≠ some c) → LineDoes c on m t rest on m
  /-- a command of the current rule -/
  | recipe {on : Bool} {m : MakeState} {o : OpenRule} {t line rest : List LChar} {es : List Expr} : m.current = some o →
      RecipeText c t line rest → Reads line (.ok es) →
      LineDoes c on m t rest on { m with current := some { o with recipe := o.recipe ++ [es] } }
  /-- a line that is no conditional and no command, with the switch off -/
  | skip {m : MakeState} {t line rest : List LChar} : Logical t line rest → line ≠ [] →
      (m.current = none ∨ (textOf t).head? ≠ some c) → ¬ CondLike (line.dropWhile lblank) →
      LineDoes c false m t rest false m
  /-- `ifeq` and `ifneq` -/
  | test {on on1 : Bool} {m : MakeState} {t line rest x y : List LChar} {inverted : Bool} {as bs : List Expr} {xs ys : List Str} :
      (m.current = none ∨ (textOf t).head? ≠ some c) → Logical t line rest →
      CondText (line.dropWhile lblank) (.test inverted as bs) → Expands m.vars.env as x xs → Expands m.vars.env bs y ys →
      (on1 = true ↔ AllTaken (m.branches ++ [⟨(trim (textOf x) == trim (textOf y)) != inverted, false⟩])) →
      LineDoes c on m t rest on1
        { m with branches := m.branches ++ [⟨(trim (textOf x) == trim (textOf y)) != inverted, false⟩] }
  | else_ {on on1 : Bool} {m : MakeState} {bs : List Branch} {e : Bool} {t line rest : List LChar} :
      (m.current = none ∨ (textOf t).head? ≠ some c) → Logical t line rest → CondText (line.dropWhile lblank) .else_ →
      m.branches = bs ++ [⟨e, false⟩] → (on1 = true ↔ AllTaken (bs ++ [⟨!e, true⟩])) →
      LineDoes c on m t rest on1 { m with branches := bs ++ [⟨!e, true⟩] }
  | endif {on : Bool} {m : MakeState} {bs : List Branch} {b : Branch} {t line rest : List LChar} :
      (m.current = none ∨ (textOf t).head? ≠ some c) → Logical t line rest → CondText (line.dropWhile lblank) .endif →
      m.branches = bs ++ [b] → LineDoes c on m t rest on { m with branches := bs }

mutual

/-- What the program does with the text `t`, in which no comments occur: it leads to a state of affairs in `M`.  Besides what `LineDoes`
says, there are three differences from what makefiles mean (`Means`):
* a text may end inside a definition;
* the rule that is open at the end of an included file or of an evaluated text is lost;
* a rule that is open before a line that calls `eval` is completed after the evaluated text, not before it. -/
inductive Does (fs : Fs) (c : Char) : (on : Bool) → MakeState → (t : List LChar) → (M : Bool → MakeState → Prop) → Prop
  | nil {on : Bool} {m : MakeState} {M : Bool → MakeState → Prop} : M on m → Does fs c on m [] M
  | line {on on1 : Bool} {m m1 : MakeState} {M : Bool → MakeState → Prop} {t rest : List LChar} :
      LineDoes c on m t rest on1 m1 → Does fs c on1 m1 rest M → Does fs c on m t M
  /-- a definition of a variable by several lines -/
  | define {m : MakeState} {M : Bool → MakeState → Prop} {t line body rest : List LChar} {s : Str} {ty : AssignType}
      {es : List Expr} {v : Vars} : (m.current = none ∨ (textOf t).head? ≠ some c) →
      Logical t line body → DefineHead m.vars.env line s ty → DefineBody Begins 1 body es rest →
      DefineSets m.vars s ty es v → Does fs c true { m.close with vars := v } rest M → Does fs c true m t M
  /-- a definition that is not ended before the end of the text: all the rest belongs to it -/
  | openDefine {m : MakeState} {M : Bool → MakeState → Prop} {t line body : List LChar} {s : Str} {ty : AssignType}
      {es : List Expr} {v : Vars} : (m.current = none ∨ (textOf t).head? ≠ some c) →
      Logical t line body → DefineHead m.vars.env line s ty → OpenBody Begins 1 body es →
      DefineSets m.vars s ty es v → M true { m.close with vars := v } → Does fs c true m t M
  /-- `include names` or `-include names` -/
  | include_ {m : MakeState} {M1 : MakeState → Prop} {M : Bool → MakeState → Prop} {t line rest args u : List LChar}
      {soft : Bool} {es : List Expr} {vs names : List Str} : (m.current = none ∨ (textOf t).head? ≠ some c) → Logical t line rest →
      IncludeText line soft args → ¬ VarLike line → Reads args (.ok es) → Expands m.vars.env es u vs → IncludeNames u names →
      DoesRead fs c soft names m.close M1 → (∀ m1, M1 m1 → Does fs c true m1 rest M) →
      Does fs c true m t M
  /-- `$(eval arg)` on a line of its own, where `arg` is a text without references -/
  | eval {m : MakeState} {M1 M : Bool → MakeState → Prop} {t line rest arg : List LChar} :
      (m.current = none ∨ (textOf t).head? ≠ some c) → c ≠ '$' → Physical t line rest → EvalLine line arg →
      ¬ VarLike line → Free '$' arg → Does fs c true ⟨m.vars, m.rules, [], none⟩ arg M1 →
      (∀ on1 m1, M1 on1 m1 → Does fs c true ({ m with vars := m1.vars, rules := m1.rules } : MakeState).close rest M) →
      Does fs c true m t M

/-- What the program does with the text `t` of a whole makefile, comments included.  All that precedes the first comment is
taken for one line, and all up to the end of the last comment for comments. -/
inductive DoesFile (fs : Fs) (c : Char) : MakeState → (t : List LChar) → (M : Bool → MakeState → Prop) → Prop
  /-- no comments -/
  | plain {m : MakeState} {M : Bool → MakeState → Prop} {t : List LChar} : Free '#' t → Does fs c true m t M →
      DoesFile fs c m t M
  /-- a comment comes first -/
  | commented {m : MakeState} {M : Bool → MakeState → Prop} {blanks t rest : List LChar} : Blanks blanks → Swallowed t rest →
      Does fs c true m rest M → DoesFile fs c m (blanks ++ t) M
  /-- an assignment, a rule, a definition, an empty line or a test precedes the first comment -/
  | trailed {on : Bool} {m m1 : MakeState} {M : Bool → MakeState → Prop} {t rest : List LChar} : TrailedDoes c m t rest m1 →
      (on = true ↔ AllTaken m1.branches) → Does fs c on m1 rest M → DoesFile fs c m t M
  /-- a definition precedes the first comment, and it is not ended -/
  | trailedOpen {m : MakeState} {M : Bool → MakeState → Prop} {t line body : List LChar} {s : Str} {ty : AssignType}
      {es : List Expr} {v : Vars} : (m.current = none ∨ (textOf t).head? ≠ some c) →
      Trailed t line body → DefineHead m.vars.env line s ty → OpenBody Begins 1 body es →
      DefineSets m.vars s ty es v → M true { m.close with vars := v } → DoesFile fs c m t M
  /-- an include line precedes the first comment -/
  | trailedInclude {m : MakeState} {M1 : MakeState → Prop} {M : Bool → MakeState → Prop} {t line rest args u : List LChar}
      {soft : Bool} {es : List Expr} {vs names : List Str} : (m.current = none ∨ (textOf t).head? ≠ some c) → Trailed t line rest →
      IncludeText line soft args → ¬ VarLike line → Reads args (.ok es) → Expands m.vars.env es u vs → IncludeNames u names →
      DoesRead fs c soft names m.close M1 → (∀ m1, M1 m1 → Does fs c true m1 rest M) →
      DoesFile fs c m t M

/-- What the program does with included files. -/
inductive DoesRead (fs : Fs) (c : Char) : (soft : Bool) → (names : List Str) → MakeState → (M : MakeState → Prop) → Prop
  | done {soft : Bool} {m : MakeState} {M : MakeState → Prop} : M m → DoesRead fs c soft [] m M
  | file {soft : Bool} {f s : Str} {rest : List Str} {m : MakeState}
      {M1 : FileName → Bool → MakeState → Prop} {M : MakeState → Prop} : fs f = .text s → AsciiS s →
      (∀ h, DoesFile fs c ⟨m.vars, m.rules, [], none⟩ (locate (.source 1 1 h) s) (M1 h)) →
      (∀ h on1 m1, M1 h on1 m1 → DoesRead fs c soft rest { m with vars := m1.vars, rules := m1.rules } M) →
      DoesRead fs c soft (f :: rest) m M
  /-- `-include` skips files that do not exist -/
  | skip {f : Str} {rest : List Str} {m : MakeState} {M : MakeState → Prop} : fs f = .missing →
      DoesRead fs c true rest m M → DoesRead fs c true (f :: rest) m M

end

end Hastur
