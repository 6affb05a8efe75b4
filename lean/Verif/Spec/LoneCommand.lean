import Verif.Spec.RuleLine

/-!
Commands that belong to no rule, and the two errors meant for them.
-/

namespace Hastur

/-- The line is `u;v`, where `u` is empty or consists of plain words (so there is no colon in front of the semicolon). -/
inductive LoneCommand : List LChar → Prop
  | bare {x : LChar} {v : List LChar} : x.1 = ';' → LoneCommand (x :: v)
  | words {u v : List LChar} {ws : List (List LChar)} {x : LChar} : WordList u ws → x.1 = ';' → LoneCommand (u ++ x :: v)

end Hastur
