import Verif.Proofs.Graph
import Verif.Proofs.EvalText
/-
C04, C32-C35, C37: expansion of variables.
-/
namespace Hastur

open Res

private def txt (s : String) : Ast := .constant .synthetic ⟨.synthetic, s.toList⟩
private def ref (s : String) : Ast := .varRef .synthetic (txt s)
private def cat (as : List Ast) : Ast := .concat .synthetic as
private def noFs : Fs := fun _ => .missing

private theorem txt_wf {s : String} (h : AsciiS s.toList) : (txt s).WF := h
private theorem ref_wf {s : String} (h : AsciiS s.toList) : (ref s).WF := h

/-- The text an evaluation gives. -/
private def evalText (n : Nat) (a : Ast) (st : St) : Res Str := (evalF noFs n a st) >>= fun x => .ok x.1.text

/-! ### C04 -/

private theorem filter_eq (a : Ast) (v : List Ast) : ((a :: v).filter fun a => !a.isEmpty) =
    (if a.isEmpty = true then [] else [a]) ++ v.filter fun a => !a.isEmpty := by
  rw [List.filter_cons]
  cases h : a.isEmpty <;> simp

private theorem isEmpty_iff {a : Ast} : a.isEmpty = true ↔ ∃ l, a = .empty l := by
  cases a <;> simp [Ast.isEmpty]

private theorem flatList_append : ∀ (v w : List Ast), Ast.flatList (v ++ w) = Ast.flatList v ++ Ast.flatList w
  | [], _ => rfl
  | a :: v, w => by simp [Ast.flatList, flatList_append v w]

private theorem flatList_filter : ∀ (v : List Ast), Ast.flatList (v.filter fun a => !a.isEmpty) = Ast.flatList v
  | [] => rfl
  | a :: v => by
    rw [filter_eq, flatList_append, flatList_filter v]
    split
    · rename_i h
      obtain ⟨l, rfl⟩ := isEmpty_iff.mp h
      rfl
    · simp [Ast.flatList]

private theorem collapsingConcat_flat (l : Location) (v : List Ast) : (Ast.collapsingConcat l v).flat = Ast.flatList v := by
  rw [← flatList_filter v]
  unfold Ast.collapsingConcat
  split
  · rename_i a h
    rw [h]
    simp [Ast.flatList]
  · rfl

/-- C04: what `append_to_variable` does to the database.  A defined variable keeps flavor and origin and its value is
the old one followed by the optional space and the new one; an undefined variable is defined with the given value; all
other variables, all target-specific variables and all rules are untouched. -/
theorem C04_append_to_variable (db : Database) (v : VariableName) (loc : Location) (q : VarParams) (space : Bool) :
    (∀ p, db.getVariable v = some p → ∃ p', (db.appendToVariable v loc q space).getVariable v = some p' ∧
      p'.flavor = p.flavor ∧ p'.origin = p.origin ∧
      p'.value.flat = p.value.flat ++ (if space then [.char (' ', .synthetic)] else []) ++ q.value.flat) ∧
    (db.getVariable v = none → (db.appendToVariable v loc q space).getVariable v = some q) ∧
    (∀ w, w ≠ v → (db.appendToVariable v loc q space).getVariable w = db.getVariable w) ∧
    (∀ t w, (db.appendToVariable v loc q space).getVariableForTarget t w = db.getVariableForTarget t w) ∧
    (∀ t, (db.appendToVariable v loc q space).getRule t = db.getRule t) := by
  unfold Database.appendToVariable
  cases hg : db.variables.get v with
  | none =>
    refine ⟨fun p hp => ?_, fun _ => AMap.get_insert_self _ _ _, fun w hw => AMap.get_insert_ne _ _ hw,
      fun _ _ => rfl, fun _ => rfl⟩
    have : db.variables.get v = some p := hp
    rw [hg] at this
    cases this
  | some old =>
    refine ⟨fun p hp => ?_, fun hn => ?_, fun w hw => AMap.get_insert_ne _ _ hw, fun _ _ => rfl, fun _ => rfl⟩
    · have : db.variables.get v = some p := hp
      rw [hg] at this
      cases this
      refine ⟨_, AMap.get_insert_self _ _ _, rfl, rfl, ?_⟩
      dsimp only
      rw [collapsingConcat_flat]
      cases space
      · simp [Ast.flatList]
      · simp [Ast.flatList, Ast.flat, Ast.mkConstant, Expr.text, LStr.ltext, LStr.synthetic, locate]
    · have : db.variables.get v = none := hn
      rw [hg] at this
      cases this

private theorem union_nil (s : Sens) : Sens.union s [] = s := rfl

private theorem evalConcat_filter {fs : Fs} {n : Nat} (v : List Ast) : ∀ (sens : Sens) (out : List CRef) (st : St)
    (x : (Sens × List CRef) × St), evalConcat (recF fs n) v sens out st = .ok x →
    evalConcat (recF fs n) (v.filter fun a => !a.isEmpty) sens out st = .ok x := by
  induction v with
  | nil => intro _ _ _ _ h; exact h
  | cons a v ih =>
    intro sens out st x h
    simp only [evalConcat] at h
    obtain ⟨y, h1, h2⟩ := bind_eq_ok.mp h
    rw [filter_eq]
    split
    · rename_i he
      obtain ⟨l, rfl⟩ := isEmpty_iff.mp he
      cases n with
      | zero => cases h1
      | succ n =>
        have h1 : Res.ok (([], []), st) = Res.ok y := h1
        cases h1
        dsimp only at h2
        rw [union_nil, List.append_nil] at h2
        exact ih _ _ _ _ h2
    · simp only [List.singleton_append, evalConcat, h1, ok_bind]
      exact ih _ _ _ _ h2

private theorem eval_collapsingConcat {fs : Fs} {n : Nat} {l : Location} {v : List Ast} {st : St}
    {x : (Sens × List CRef) × St} (h : evalConcat (recF fs n) v [] [] st = .ok x) :
    ∃ s, (recF fs (n + 1)).evalInternal (Ast.collapsingConcat l v) st = .ok ((s, x.1.2), x.2) ∧
      ∀ w, w ∈ s ↔ w ∈ x.1.1 := by
  have h := evalConcat_filter v _ _ _ _ h
  unfold Ast.collapsingConcat
  split
  · rename_i a ha
    rw [ha] at h
    simp only [evalConcat] at h
    obtain ⟨⟨⟨s, c⟩, st1⟩, h1, h2⟩ := bind_eq_ok.mp h
    cases h2
    exact ⟨s, ((recF_le fs (Nat.le_succ n)).evalInternal a st).ok h1, fun w => by simp [Sens.mem_union]⟩
  · exact ⟨x.1.1, h, fun w => Iff.rfl⟩

/-- C04: the expansion of an appended variable, in every state and for every value, including calls of `$(eval)` and
substitution references.  If the old value evaluates in a state, and the new value in the state this leads to, the
value made of both evaluates to the text of the first, the optional space and the text of the second; it leads to the
state the second evaluation leads to and reports what either of them reports. -/
theorem C04_evaluation (db : Database) (v : VariableName) (loc : Location) (p q p' : VarParams) (space : Bool)
    (hp : db.getVariable v = some p) (hp' : (db.appendToVariable v loc q space).getVariable v = some p')
    (fs : Fs) (n : Nat) (st st1 st2 : St) (s1 s2 : Sens) (c1 c2 : List CRef)
    (h1 : (recF fs n).evalInternal p.value st = .ok ((s1, c1), st1))
    (h2 : (recF fs n).evalInternal q.value st1 = .ok ((s2, c2), st2)) :
    ∃ s c, (recF fs (n + 1)).evalInternal p'.value st = .ok ((s, c), st2) ∧
      CRef.ltextList c = CRef.ltextList c1 ++ (if space then [(' ', .synthetic)] else []) ++ CRef.ltextList c2 ∧
      ∀ w, w ∈ s ↔ w ∈ s1 ∨ w ∈ s2 := by
  have hg : db.variables.get v = some p := hp
  unfold Database.appendToVariable at hp'
  rw [hg] at hp'
  dsimp only at hp'
  unfold Database.getVariable at hp'
  rw [AMap.get_insert_self] at hp'
  cases hp'
  dsimp only
  cases space with
  | false =>
    simp only [Bool.false_eq_true, if_false]
    obtain ⟨s, e1, e2⟩ := eval_collapsingConcat (fs := fs) (n := n) (l := loc) (v := [p.value, q.value]) (st := st)
      (x := ((Sens.union (Sens.union [] s1) s2, [] ++ c1 ++ c2), st2))
      (by simp only [evalConcat, h1, h2, ok_bind])
    exact ⟨s, _, e1, by simp, fun w => by rw [e2]; simp [Sens.mem_union]⟩
  | true =>
    simp only [if_true]
    cases n with
    | zero => cases h1
    | succ n =>
      have hc : ∀ st, (recF fs (n + 1)).evalInternal (Ast.mkConstant (.synthetic [' '])) st =
          .ok (([], [CRef.ofNode (.constant (.synthetic [' ']))]), st) := fun _ => rfl
      obtain ⟨s, e1, e2⟩ := eval_collapsingConcat (fs := fs) (n := n + 1) (l := loc)
        (v := [p.value, Ast.mkConstant (.synthetic [' ']), q.value]) (st := st)
        (x := ((Sens.union (Sens.union (Sens.union [] s1) []) s2,
          [] ++ c1 ++ [CRef.ofNode (.constant (.synthetic [' ']))] ++ c2), st2))
        (by simp only [evalConcat, h1, h2, hc, ok_bind])
      refine ⟨s, _, e1, ?_, fun w => by rw [e2]; simp [Sens.mem_union]⟩
      have hsp : CRef.ltext (CRef.ofNode (.constant (.synthetic [' ']))) = [(' ', .synthetic)] := by decide
      simp [hsp]

/-- Appending `$(b)` to `a = x`. -/
example : ∃ p', ((St.init.define ['a'] (txt "x")).db.appendToVariable ⟨0⟩ .synthetic ⟨ref "b", .recursive, .file⟩
    true).getVariable ⟨0⟩ = some p' ∧ p'.value.flat = [.char ('x', .synthetic), .char (' ', .synthetic),
      .ref .synthetic [.char ('b', .synthetic)]] := by
  obtain ⟨p', h1, _, _, h2⟩ := (C04_append_to_variable (St.init.define ['a'] (txt "x")).db ⟨0⟩ .synthetic
    ⟨ref "b", .recursive, .file⟩ true).1 ⟨txt "x", .recursive, .file⟩ rfl
  exact ⟨p', h1, h2⟩

/-! ### C32 -/

/-- C32: an expression that has an expansion is evaluated to it, however large the budget is once it is large enough. -/
theorem C32_expansion (fs : Fs) (a : Ast) (st : St) (ha : a.WF) (hst : st.WF) (t : List LChar) (vs : List Str)
    (h : Expands st.env a.flat t vs) :
    ∃ N, ∀ n, N ≤ n → ∃ b, evalF fs n a st = .ok (b, st.interned vs) ∧ Block.ltext b = t := by
  obtain ⟨N, hN⟩ := evals_of_expands fs ha hst h
  refine ⟨N, fun n hn => ?_⟩
  obtain ⟨b, h1, h2, _⟩ := (hN.mono hn).eval
  exact ⟨b, h1, h2⟩

/-- C32: conversely, whenever evaluation returns a block, its text is the expansion, unless a substitution reference
or a function call is involved. -/
theorem C32_reference_semantics (fs : Fs) (n : Nat) (a : Ast) (st st' : St) (b : Block) (ha : a.WF) (hst : st.WF)
    (h : evalF fs n a st = .ok (b, st')) (hi : ¬ Involves st.env a.flat) :
    ∃ vs, Expands st.env a.flat (Block.ltext b) vs ∧ st' = st.interned vs := by
  have h' := h
  simp only [evalF, Rec.eval] at h'
  obtain ⟨x, h1, _⟩ := bind_eq_ok.mp h'
  rcases expands_of_eval fs n a st x ha hst h1 with hv | ⟨t, vs, he⟩
  · exact absurd hv hi
  · obtain ⟨N, hN⟩ := C32_expansion fs a st ha hst t vs he
    obtain ⟨b', h2, h3⟩ := hN (max n N) (Nat.le_max_right _ _)
    rw [evalF_mono (Nat.le_max_left n N) h] at h2
    cases h2
    exact ⟨vs, by rw [h3]; exact he, rfl⟩

/-- `a = x$(b)`, `b = 1`, `c = b`. -/
private def demo : St :=
  ((St.init.define ['b'] (txt "1")).define ['a'] (cat [txt "x", ref "b"])).define ['c'] (txt "b")

private theorem demo_spec : demo.WF ∧ demo.env ['b'] = some (txt "1").flat ∧
    demo.env ['a'] = some (cat [txt "x", ref "b"]).flat ∧ demo.env ['c'] = some (txt "b").flat ∧
    demo.env ['d'] = none ∧ ∀ x, demo.env x = if x = ['c'] then some (txt "b").flat else
      if x = ['a'] then some (cat [txt "x", ref "b"]).flat else if x = ['b'] then some (txt "1").flat else none := by
  obtain ⟨h1, e1⟩ := St.init_wf.define (s := ['b']) (a := txt "1") (f := .recursive) (by show AsciiS _; unfold AsciiS; decide)
  obtain ⟨h2, e2⟩ := h1.define (s := ['a']) (a := cat [txt "x", ref "b"]) (f := .recursive)
    ⟨(by show AsciiS _; unfold AsciiS; decide), (by show AsciiS _; unfold AsciiS; decide), trivial⟩
  obtain ⟨h3, e3⟩ := h2.define (s := ['c']) (a := txt "b") (f := .recursive) (by show AsciiS _; unfold AsciiS; decide)
  refine ⟨h3, ?_, ?_, ?_, ?_, fun x => ?_⟩
  · exact (e3 _).trans ((e2 _).trans (e1 _))
  · exact (e3 _).trans (e2 _)
  · exact e3 _
  · exact (e3 _).trans ((e2 _).trans (e1 _))
  · rw [show demo.env x = _ from e3 x, e2 x, e1 x]
    rfl

/-- `$(a)$($(c))$(d)` expands to `x11` and consults `a`, `b`, `c`, `b`, `d`. -/
private def demoExpr : Ast := cat [ref "a", .varRef .synthetic (ref "c"), ref "d"]

private theorem not_subst {s : Str} (h : ':' ∉ s) : ¬ IsSubst s := by
  rintro ⟨a, b, c, rfl, _⟩
  exact h (by simp)

private theorem demo_expands : Expands demo.env demoExpr.flat (locate .synthetic ['x'] ++ locate .synthetic ['1'] ++
    locate .synthetic ['1']) [['a'], ['b'], ['c'], ['b'], ['d']] := by
  obtain ⟨_, hb, ha, hc, hd, _⟩ := demo_spec
  have tx : ∀ s : Str, Expands demo.env (Expr.text (locate .synthetic s)) (locate .synthetic s) [] :=
    fun s => Expands.text _ _
  have rb : Expands demo.env (ref "b").flat (locate .synthetic ['1']) [['b']] :=
    .defined (tx ['b']) (not_subst (by decide)) hb (tx ['1']) .nil
  have ra : Expands demo.env (ref "a").flat (locate .synthetic ['x'] ++ locate .synthetic ['1']) [['a'], ['b']] := by
    refine .defined (u := locate .synthetic ['x'] ++ locate .synthetic ['1']) (us := [['b']]) (tx ['a'])
      (not_subst (by decide)) ha ?_ .nil
    exact (tx ['x']).append rb
  have rc : Expands demo.env (ref "c").flat (locate .synthetic ['b']) [['c']] :=
    .defined (tx ['c']) (not_subst (by decide)) hc (tx ['b']) .nil
  have rcc : Expands demo.env (Ast.varRef .synthetic (ref "c")).flat (locate .synthetic ['1']) [['c'], ['b']] :=
    .defined rc (not_subst (by decide)) hb (tx ['1']) .nil
  have rd : Expands demo.env (ref "d").flat [] [['d']] := .undefined (tx ['d']) (not_subst (by decide)) hd .nil
  exact ra.append (rcc.append (rd.append .nil))

private theorem demoExpr_wf : demoExpr.WF :=
  ⟨(by show AsciiS _; unfold AsciiS; decide), (by show AsciiS _; unfold AsciiS; decide),
    (by show AsciiS _; unfold AsciiS; decide), trivial⟩

example : ∃ N, ∀ n, N ≤ n → ∃ b, evalF noFs n demoExpr demo = .ok (b, demo.interned [['a'], ['b'], ['c'], ['b'], ['d']]) ∧
    Block.text b = "x11".toList := by
  obtain ⟨N, hN⟩ := C32_expansion noFs demoExpr demo demoExpr_wf demo_spec.1 _ _ demo_expands
  exact ⟨N, fun n hn => by obtain ⟨b, h1, h2⟩ := hN n hn; exact ⟨b, h1, by rw [Block.text, h2]; decide⟩⟩

/-! ### C33 -/

/-- C33: if neither the expression nor the value of a variable it consults contains `$(eval ...)`, evaluating it
leaves the whole database (variables, target-specific variables, rules) and the recipe prefix as they are.
The consulted variables are those in the reported set, see C35. -/
theorem C33_no_effects (fs : Fs) (n : Nat) (a : Ast) (st st' : St) (b : Block) (h : evalF fs n a st = .ok (b, st'))
    (ha : ¬ HasEval a.flat) (hv : ∀ v ∈ b.sens, ∀ p, st.db.getVariable v = some p → ¬ HasEval p.value.flat) :
    st'.db = st.db ∧ st'.commandChar = st.commandChar := by
  obtain ⟨h1, h2, _⟩ := (recF_frames fs n).eval a st _ ha h fun v hm c hc => by
    obtain ⟨p, hp, rfl⟩ := Option.map_eq_some_iff.mp hc
    exact hv v hm p hp
  exact ⟨h1, h2⟩

/-- C33: every evaluation, even one that calls `$(eval ...)`, only adds names: the cache afterwards is the one before
with further names interned, and every handle still stands for the same name. -/
theorem C33_names_only_added (fs : Fs) (n : Nat) (a : Ast) (st st' : St) (b : Block)
    (h : evalF fs n a st = .ok (b, st')) :
    (∃ calls, st'.names = st.names.after calls) ∧
    (∀ v s, st.names.resolveVar v = some s → st'.names.resolveVar v = some s) ∧
    (∀ f s, st.names.resolveFile f = some s → st'.names.resolveFile f = some s) := by
  obtain ⟨cs, hcs⟩ := evalF_keeps (namesGrow_inv st.names) (x := (b, st')) ⟨[], rfl⟩ h
  refine ⟨⟨cs, hcs⟩, fun v s hv => ?_, fun f s hf => ?_⟩
  · have hcs : st'.names = st.names.after cs := hcs
    rw [hcs]; exact NameCache.resolveVar_after _ _ _ _ hv
  · have hcs : st'.names = st.names.after cs := hcs
    rw [hcs]; exact NameCache.resolveFile_after _ _ _ _ hf

theorem not_hasEval_text {t : List LChar} : ¬ HasEval (Expr.text t) := by
  intro h
  cases h with
  | eval h => simp [Expr.text] at h
  | ref h _ => simp [Expr.text] at h
  | strip h _ => simp [Expr.text] at h
  | index h _ => simp [Expr.text] at h
  | word h _ => simp [Expr.text] at h
  | words h _ => simp [Expr.text] at h

theorem not_hasEval_append {es fs : List Expr} (h1 : ¬ HasEval es) (h2 : ¬ HasEval fs) : ¬ HasEval (es ++ fs) := by
  intro h
  cases h with
  | eval h => exact (List.mem_append.mp h).elim (fun h => h1 (.eval h)) fun h => h2 (.eval h)
  | ref h h' => exact (List.mem_append.mp h).elim (fun h => h1 (.ref h h')) fun h => h2 (.ref h h')
  | strip h h' => exact (List.mem_append.mp h).elim (fun h => h1 (.strip h h')) fun h => h2 (.strip h h')
  | index h h' => exact (List.mem_append.mp h).elim (fun h => h1 (.index h h')) fun h => h2 (.index h h')
  | word h h' => exact (List.mem_append.mp h).elim (fun h => h1 (.word h h')) fun h => h2 (.word h h')
  | words h h' => exact (List.mem_append.mp h).elim (fun h => h1 (.words h h')) fun h => h2 (.words h h')

theorem not_hasEval_ref {l : Location} {n : List Expr} (h : ¬ HasEval n) : ¬ HasEval [.ref l n] := by
  intro hh
  cases hh with
  | ref hm h' => cases List.mem_singleton.mp hm; exact h h'
  | eval hm => simp at hm
  | strip hm _ => simp at hm
  | index hm _ => simp at hm
  | word hm _ => simp at hm
  | words hm _ => simp at hm

private theorem demoExpr_noEval : ¬ HasEval demoExpr.flat := by
  have t : ∀ s, ¬ HasEval (txt s).flat := fun s => not_hasEval_text
  have n : ¬ HasEval [] := not_hasEval_text (t := [])
  exact not_hasEval_append (not_hasEval_ref (t _)) (not_hasEval_append (not_hasEval_ref (not_hasEval_ref (t _)))
    (not_hasEval_append (not_hasEval_ref (t _)) n))

private theorem demo_noEval (v : VariableName) (p : VarParams) (h : demo.db.getVariable v = some p) :
    ¬ HasEval p.value.flat := by
  have t : ∀ s, ¬ HasEval (txt s).flat := fun s => not_hasEval_text
  have n : ¬ HasEval [] := not_hasEval_text (t := [])
  have : p.value = txt "b" ∨ p.value = cat [txt "x", ref "b"] ∨ p.value = txt "1" := by
    have h0 : ∀ (w : VariableName), demo.db.getVariable w =
        if w = ⟨2⟩ then some ⟨txt "b", .recursive, .file⟩ else
        if w = ⟨1⟩ then some ⟨cat [txt "x", ref "b"], .recursive, .file⟩ else
        if w = ⟨0⟩ then some ⟨txt "1", .recursive, .file⟩ else none := by
      intro w
      refine (AMap.get_insert _ _ _ _).trans ?_
      congr 1
      refine (AMap.get_insert _ _ _ _).trans ?_
      congr 1
      exact AMap.get_insert _ _ _ _
    rw [h0] at h
    split at h
    · cases h; exact .inl rfl
    · split at h
      · cases h; exact .inr (.inl rfl)
      · split at h
        · cases h; exact .inr (.inr rfl)
        · cases h
  rcases this with h | h | h <;> rw [h]
  · exact t _
  · exact not_hasEval_append (t _) (not_hasEval_append (not_hasEval_ref (t _)) n)
  · exact t _

example : ∃ b st', evalF noFs 8 demoExpr demo = .ok (b, st') ∧ st'.db = demo.db ∧
    st'.names.variableName ['d'] = some ⟨3⟩ := by
  have e : ((evalF noFs 8 demoExpr demo) >>= fun x => .ok (x.2.names.variableName ['d'])) = .ok (some ⟨3⟩) := by
    decide +kernel
  obtain ⟨⟨b, st'⟩, h, e⟩ := bind_eq_ok.mp e
  refine ⟨b, st', h, (C33_no_effects noFs 8 demoExpr demo st' b h demoExpr_noEval fun v _ p hp => demo_noEval v p hp).1, ?_⟩
  exact Res.ok.inj e

/-! ### C34 -/

/-- The full claim: two databases that agree on the reported variables give the same text. -/
def C34_full : Prop :=
  ∀ (fs : Fs) (n : Nat) (a : Ast) (st st₁ st₂ : St) (db₂ : Database) (b b₂ : Block), evalF fs n a st = .ok (b, st₁) →
    (∀ v ∈ b.sens, db₂.getVariable v = st.db.getVariable v) →
    evalF fs n a { st with db := db₂ } = .ok (b₂, st₂) → b₂.text = b.text

/-- `$(eval a := $$(b))$(a)`: the value of `b` is consulted while the text is processed, which is not reported. -/
private def spy : Ast := cat [.eval .synthetic (txt "a := $(b)"), ref "a"]

/-- The claim fails for expressions that call `$(eval ...)`. -/
theorem C34_refuted : ¬ C34_full := by
  intro h
  have e1 : evalText 7 spy (St.init.define ['b'] (txt "1")) = .ok ['1'] := by decide +kernel
  have e2 : evalText 7 spy (St.init.define ['b'] (txt "2")) = .ok ['2'] := by decide +kernel
  have e3 : ((evalF noFs 7 spy (St.init.define ['b'] (txt "1"))) >>= fun x => .ok x.1.sens) = .ok [⟨1⟩] := by decide +kernel
  obtain ⟨⟨b, st₁⟩, hb, e1⟩ := bind_eq_ok.mp e1
  obtain ⟨⟨b₂, st₂⟩, hb₂, e2⟩ := bind_eq_ok.mp e2
  rw [hb] at e3
  simp only [ok_bind, Res.ok.injEq] at e1 e2 e3
  have := h noFs 7 spy _ st₁ st₂ (St.init.define ['b'] (txt "2")).db b b₂ hb (by rw [e3]; intro v hv; cases List.mem_singleton.mp hv; rfl) hb₂
  rw [e1, e2] at this
  cases this

/-- What holds: if neither the expression nor the reported variables contain `$(eval ...)`, the evaluation in any
database that agrees on the values of the reported variables returns as well, with the same block (text, locations and
reported variables), and interns the same names. -/
theorem C34_sound_partial (fs : Fs) (n : Nat) (a : Ast) (st st' : St) (b : Block) (h : evalF fs n a st = .ok (b, st'))
    (ha : ¬ HasEval a.flat) (hv : ∀ v ∈ b.sens, ∀ p, st.db.getVariable v = some p → ¬ HasEval p.value.flat)
    (db₂ : Database)
    (hd : ∀ v ∈ b.sens, (db₂.getVariable v).map (·.value) = (st.db.getVariable v).map (·.value)) :
    evalF fs n a { st with db := db₂ } = .ok (b, { st' with db := db₂ }) := by
  obtain ⟨h1, h2, h3⟩ := (recF_frames fs n).eval a st _ ha h fun v hm c hc => by
    obtain ⟨p, hp, rfl⟩ := Option.map_eq_some_iff.mp hc
    exact hv v hm p hp
  have := h3 db₂ st.commandChar hd
  dsimp only at h2
  rw [← h2] at this ⊢
  exact this

/-- The example of C32 in a database with another variable changed: `c` is consulted, `e` is not. -/
example : ∃ b st', evalF noFs 8 demoExpr demo = .ok (b, st') ∧ evalF noFs 8 demoExpr
    { demo with db := demo.db.setVariable ⟨7⟩ ⟨txt "other", .simple, .file⟩ } =
      .ok (b, { st' with db := demo.db.setVariable ⟨7⟩ ⟨txt "other", .simple, .file⟩ }) := by
  have e : ((evalF noFs 8 demoExpr demo) >>= fun x => .ok (decide ((⟨7⟩ : VariableName) ∈ x.1.sens))) = .ok false := by
    decide +kernel
  obtain ⟨⟨b, st'⟩, h, e⟩ := bind_eq_ok.mp e
  have hns := of_decide_eq_false (Res.ok.inj e)
  refine ⟨b, st', h, C34_sound_partial noFs 8 demoExpr demo st' b h demoExpr_noEval
    (fun v _ p hp => demo_noEval v p hp) _ fun v hm => ?_⟩
  rw [show (demo.db.setVariable ⟨7⟩ ⟨txt "other", .simple, .file⟩).getVariable v = demo.db.getVariable v from
    AMap.get_insert_ne _ _ fun e => hns (by rw [← e]; exact hm)]

/-! ### C35 -/

/-- Evaluating the expression in the state consults the variable: there is a database, the same except for the value
of this variable, in which the evaluation does not return, whatever the budget.  (A value that cannot be evaluated
does this if and only if it is looked at.) -/
def Consults (fs : Fs) (a : Ast) (st : St) (v : VariableName) : Prop :=
  ∃ db₂ : Database, (∀ w, w ≠ v → db₂.getVariable w = st.db.getVariable w) ∧
    ∀ m x, evalF fs m a { st with db := db₂ } ≠ .ok x

private theorem poison_strip (l : Location) (a : Ast) : Poison (.strip l a) := by
  intro fs n st x h
  cases n <;> cases h

/-- The full claim: the reported variables are those consulted. -/
def C35_full : Prop :=
  ∀ (fs : Fs) (n : Nat) (a : Ast) (st st' : St) (b : Block), evalF fs n a st = .ok (b, st') →
    ∀ v, v ∈ b.sens ↔ Consults fs a st v

/-- The claim fails for expressions that call `$(eval ...)`: what the processed text consults is not reported. -/
theorem C35_refuted : ¬ C35_full := by
  intro h
  have e3 : ((evalF noFs 7 spy (St.init.define ['b'] (txt "1"))) >>= fun x => .ok x.1.sens) = .ok [⟨1⟩] := by decide +kernel
  obtain ⟨⟨b, st'⟩, hb, e3⟩ := bind_eq_ok.mp e3
  have e3 := Res.ok.inj e3
  dsimp only at e3
  have := (h noFs 7 spy _ st' b hb ⟨0⟩).mpr ?_
  · rw [e3] at this
    exact absurd this (by decide)
  · refine ⟨(St.init.define ['b'] (.strip .synthetic (txt "1"))).db, fun w hw => ?_, fun m x hx => ?_⟩
    · rw [show (St.init.define ['b'] (.strip .synthetic (txt "1"))).db.getVariable w = _ from AMap.get_insert_ne _ _ hw]
      exact (AMap.get_insert_ne _ _ hw).symm
    · have e : evalText 7 spy (St.init.define ['b'] (.strip .synthetic (txt "1"))) = .panic .unimplemented := by
        decide +kernel
      have hx : evalF noFs m spy (St.init.define ['b'] (.strip .synthetic (txt "1"))) = .ok x := hx
      rcases Nat.le_total m 7 with hm | hm
      · have := evalF_mono hm hx
        rw [evalText, this] at e
        cases e
      · have hp : evalF noFs 7 spy (St.init.define ['b'] (.strip .synthetic (txt "1"))) = .panic .unimplemented := by
          unfold evalText at e
          cases h : evalF noFs 7 spy (St.init.define ['b'] (.strip .synthetic (txt "1"))) with
          | ok y => rw [h] at e; cases e
          | fuel => rw [h] at e; cases e
          | panic q => rw [h] at e; cases e; rfl
        unfold evalF at hx hp
        rcases (recF_le noFs hm).eval spy (St.init.define ['b'] (.strip .synthetic (txt "1"))) with h | h
        · rw [hp] at h; cases h
        · rw [hp, hx] at h; cases h

/-- What holds: without `$(eval ...)` in the expression and in the values of the reported variables, the reported
variables are exactly those consulted. -/
theorem C35_exact_partial (fs : Fs) (n : Nat) (a : Ast) (st st' : St) (b : Block) (h : evalF fs n a st = .ok (b, st'))
    (ha : ¬ HasEval a.flat) (hv : ∀ v ∈ b.sens, ∀ p, st.db.getVariable v = some p → ¬ HasEval p.value.flat)
    (v : VariableName) : v ∈ b.sens ↔ Consults fs a st v := by
  have hv' : ∀ v ∈ b.sens, ∀ c, st.db.valueOf v = some c → ¬ HasEval c.flat := fun v hm c hc => by
    obtain ⟨p, hp, rfl⟩ := Option.map_eq_some_iff.mp hc
    exact hv v hm p hp
  constructor
  · intro hm
    have hd : ∀ w, w ≠ v → (st.db.setVariable v ⟨.strip .synthetic (.empty .synthetic), .recursive, .file⟩).getVariable w =
      st.db.getVariable w := fun w hw => AMap.get_insert_ne _ _ hw
    refine ⟨st.db.setVariable v ⟨.strip .synthetic (.empty .synthetic), .recursive, .file⟩, hd, fun m x hx => ?_⟩
    have h1 := evalF_mono (Nat.le_max_left n m) h
    have h2 := evalF_mono (Nat.le_max_right n m) hx
    refine (recF_depends fs (max n m)).eval a st _ ha h1 hv' v _ st.commandChar x hm
      (fun w hw => by simp only [Database.valueOf, hd w hw]) ⟨_, ?_, poison_strip .synthetic (.empty .synthetic)⟩ h2
    exact congrArg (Option.map VarParams.value) (AMap.get_insert_self _ _ _)
  · rintro ⟨db₂, hd, hno⟩
    by_contra hm
    refine hno n _ (C34_sound_partial fs n a st st' b h ha hv db₂ fun w hw => ?_)
    rw [hd w fun e => hm (e ▸ hw)]

/-- The same through the expansion semantics: the reported variables are the handles of the consulted names. -/
theorem C35_trace_partial (fs : Fs) (n : Nat) (a : Ast) (st st' : St) (b : Block) (ha : a.WF) (hst : st.WF)
    (h : evalF fs n a st = .ok (b, st')) (t : List LChar) (vs : List Str) (he : Expands st.env a.flat t vs)
    (v : VariableName) : v ∈ b.sens ↔ ∃ s ∈ vs, st'.names.variableName s = some v := by
  obtain ⟨N, hN⟩ := evals_of_expands fs ha hst he
  obtain ⟨b', h1, _, h3, _⟩ := (hN.mono (Nat.le_max_right n N)).eval
  have h2 := evalF_mono (Nat.le_max_left n N) h
  unfold evalF at h2
  rw [h2] at h1
  cases h1
  exact h3 v

example (b : Block) (st' : St) (h : evalF noFs 8 demoExpr demo = .ok (b, st')) (v : VariableName) :
    v ∈ b.sens ↔ ∃ s ∈ [['a'], ['b'], ['c'], ['b'], ['d']], st'.names.variableName s = some v :=
  C35_trace_partial noFs 8 demoExpr demo st' b demoExpr_wf demo_spec.1 h _ _ demo_expands v

example : ((evalF noFs 8 demoExpr demo) >>= fun x => .ok (x.1.sens, x.2.names.vars.strings)) =
    .ok ([⟨0⟩, ⟨1⟩, ⟨2⟩, ⟨3⟩], [['b'], ['a'], ['c'], ['d']]) := by decide +kernel

/-! ### C37 -/

/-- The full claim, for all expressions. -/
def C37_full : Prop :=
  ∀ (fs : Fs) (a : Ast) (st : St), a.WF → st.WF →
    (∀ x, Mentions st.env x a.flat → Relation.TransGen (Refers st.env) x x → ∀ n y, evalF fs n a st ≠ .ok y) ∧
    ((∀ x, ¬ Relation.TransGen (Refers st.env) x x) → ∃ N, ∀ n, N ≤ n → ∃ b st', evalF fs n a st = .ok (b, st'))

/-- Both halves fail when functions are involved: `x = $(eval x := 1)$(x)` mentions itself, but has been replaced when
it comes to that; and the functions other than `$(eval ...)` are not implemented. -/
theorem C37_refuted : ¬ C37_full ∧
    ¬ (∀ (fs : Fs) (a : Ast) (st : St), a.WF → st.WF → (∀ x, ¬ Relation.TransGen (Refers st.env) x x) →
      ∃ N, ∀ n, N ≤ n → ∃ b st', evalF fs n a st = .ok (b, st')) := by
  constructor
  · intro h
    obtain ⟨hw, he⟩ := St.init_wf.define (s := ['x']) (a := cat [.eval .synthetic (txt "x := 1"), ref "x"]) (f := .recursive)
      ⟨(by show AsciiS _; unfold AsciiS; decide), (by show AsciiS _; unfold AsciiS; decide), trivial⟩
    have tx : ∀ (env : Env) (s : Str), Expands env (Expr.text (locate .synthetic s)) (locate .synthetic s) [] :=
      fun env s => Expands.text _ _
    have e : evalText 9 (ref "x") (St.init.define ['x'] (cat [.eval .synthetic (txt "x := 1"), ref "x"])) = .ok ['1'] := by
      decide +kernel
    obtain ⟨x, hx, _⟩ := bind_eq_ok.mp e
    refine (h noFs (ref "x") _ (by show AsciiS _; unfold AsciiS; decide) hw).1 ['x'] ?_ ?_ 9 x hx
    · exact .ref (List.mem_singleton.mpr rfl) (tx _ ['x']) (not_subst (by decide)) rfl
    · refine .single ⟨_, he _, ?_⟩
      exact .ref (l := .synthetic) (List.mem_append_right _ (List.mem_append_left _ (List.mem_singleton.mpr rfl))) (tx _ ['x'])
        (not_subst (by decide)) rfl
  · intro h
    obtain ⟨N, hN⟩ := h noFs (.strip .synthetic (txt "a")) St.init (by show AsciiS _; unfold AsciiS; decide) St.init_wf
      fun x hx => by
        obtain ⟨y, ⟨body, hb, _⟩, _⟩ := Relation.TransGen.head'_iff.mp hx
        cases hb
    obtain ⟨b, st', hb⟩ := hN (N + 1) (Nat.le_succ N)
    cases hb

/-- C37: a variable on a cycle of the reference graph (its value mentions it, directly or through other variables)
never gets a value: no budget suffices, whatever else is in the expression.  Missing: cycles through substitution
references (see C37_cycle_with_substitutions_partial), and databases with `$(eval ...)`, for which the claim is false. -/
theorem C37_cycle_never_returns_partial (fs : Fs) (a : Ast) (st : St) (x : Str) (ha : a.WF) (hst : st.WF)
    (hna : ¬ HasEval a.flat) (hv : ∀ v p, st.db.getVariable v = some p → ¬ HasEval p.value.flat)
    (hm : Mentions st.env x a.flat) (hx : Relation.TransGen (Refers st.env) x x) :
    ∀ n y, evalF fs n a st ≠ .ok y := by
  intro n y h
  have hne : st.NoEval := fun v c hc => by
    obtain ⟨p, hp, rfl⟩ := Option.map_eq_some_iff.mp hc
    exact hv v p hp
  simp only [evalF, Rec.eval] at h
  obtain ⟨z, hz, _⟩ := bind_eq_ok.mp h
  have hdef : st.env x ≠ none := by
    obtain ⟨w, ⟨body, hb, _⟩, _⟩ := Relation.TransGen.head'_iff.mp hx
    rw [hb]; simp
  obtain ⟨m, _, hr⟩ := reached_of_mentions fs n a st z x ha hst hne hna hz hm hdef
  exact cycle_diverges fs m st x hst hne hx hr

/-- C37: when the reference graph has no cycle, expansion returns, with some budget and with every larger one.
Missing: substitution references (see C37_acyclic_with_substitutions_partial), and function calls, for which the claim
is false. -/
theorem C37_acyclic_returns_partial (fs : Fs) (a : Ast) (st : St) (ha : a.WF) (hst : st.WF)
    (hi : ¬ Involves st.env a.flat) (hv : ∀ x body, st.env x = some body → ¬ Involves st.env body)
    (hacyc : ∀ x, ¬ Relation.TransGen (Refers st.env) x x) :
    ∃ N, ∀ n, N ≤ n → ∃ b st', evalF fs n a st = .ok (b, st') := by
  obtain ⟨t, vs, h⟩ := expands_of_values _ a.flat (Nat.le_refl _) hi fun y body _ hb =>
    values_expand st.env_finite hacyc hv y body hb
  obtain ⟨N, hN⟩ := C32_expansion fs a st ha hst t vs h
  exact ⟨N, fun n hn => by obtain ⟨b, h1, _⟩ := hN n hn; exact ⟨b, _, h1⟩⟩

/-- C37: with `x = $(x)` the budget runs out, whatever it is; evaluation does not panic. -/
theorem C37_self_reference_overflows (fs : Fs) (n : Nat) :
    (St.init.define ['x'] (ref "x")).env ['x'] = some (ref "x").flat ∧
    evalF fs n (ref "x") (St.init.define ['x'] (ref "x")) = .fuel := by
  refine ⟨rfl, ?_⟩
  suffices h : (recF fs n).evalInternal (ref "x") (St.init.define ['x'] (ref "x")) = .fuel by
    simp only [evalF, Rec.eval, h]; rfl
  induction n with
  | zero => rfl
  | succ n ih =>
    show evalVarRef (recF fs n) (txt "x") _ = .fuel
    cases n with
    | zero => rfl
    | succ n =>
      -- evaluating the name gives `x`, which is not a substitution reference and has the handle 0
      show ((recF fs (n + 1)).eval (ref "x") (St.init.define ['x'] (ref "x")) >>= fun y => _) >>= (fun z => _) = Res.fuel
      simp only [Rec.eval, ih]
      rfl

/-- `x = $(y)`, `y = a$(x)`: a cycle of two variables. -/
private def loop : St := (St.init.define ['x'] (ref "y")).define ['y'] (cat [txt "a", ref "x"])

example : ∀ n y, evalF noFs n (cat [txt "b", ref "x"]) loop ≠ .ok y := by
  obtain ⟨h1, e1⟩ := St.init_wf.define (s := ['x']) (a := ref "y") (f := .recursive) (by show AsciiS _; unfold AsciiS; decide)
  obtain ⟨h2, e2⟩ := h1.define (s := ['y']) (a := cat [txt "a", ref "x"]) (f := .recursive)
    ⟨(by show AsciiS _; unfold AsciiS; decide), (by show AsciiS _; unfold AsciiS; decide), trivial⟩
  have hx : loop.env ['x'] = some (ref "y").flat := (e2 _).trans (e1 _)
  have hy : loop.env ['y'] = some (cat [txt "a", ref "x"]).flat := e2 _
  have tx : ∀ s : Str, Expands loop.env (Expr.text (locate .synthetic s)) (locate .synthetic s) [] :=
    fun s => Expands.text _ _
  have t : ∀ s, ¬ HasEval (txt s).flat := fun s => not_hasEval_text
  have n : ¬ HasEval [] := not_hasEval_text (t := [])
  have mx : ∀ c, Mentions loop.env ['x'] (cat [txt c, ref "x"]).flat := fun c =>
    .ref (l := .synthetic) (List.mem_append_right _ (List.mem_append_left _ (List.mem_singleton.mpr rfl))) (tx ['x'])
      (not_subst (by decide)) rfl
  refine C37_cycle_never_returns_partial noFs _ loop ['x']
    ⟨(by show AsciiS _; unfold AsciiS; decide), (by show AsciiS _; unfold AsciiS; decide), trivial⟩ h2
    (not_hasEval_append (t _) (not_hasEval_append (not_hasEval_ref (t _)) n)) ?_ (mx "b") ?_
  · intro v p hp
    have h0 : ∀ (w : VariableName), loop.db.getVariable w =
        if w = ⟨1⟩ then some ⟨cat [txt "a", ref "x"], .recursive, .file⟩ else
        if w = ⟨0⟩ then some ⟨ref "y", .recursive, .file⟩ else none := by
      intro w
      refine (AMap.get_insert _ _ _ _).trans ?_
      congr 1
      exact AMap.get_insert _ _ _ _
    rw [h0] at hp
    split at hp
    · cases hp; exact not_hasEval_append (t _) (not_hasEval_append (not_hasEval_ref (t _)) n)
    · split at hp
      · cases hp; exact not_hasEval_ref (t _)
      · cases hp
  · exact .tail (.single ⟨_, hx, .ref (List.mem_singleton.mpr rfl) (tx ['y']) (not_subst (by decide)) rfl⟩)
      ⟨_, hy, mx "a"⟩

private theorem involves_cat {env : Env} {es fs : List Expr} (h1 : ¬ Involves env es) (h2 : ¬ Involves env fs) :
    ¬ Involves env (es ++ fs) := by
  intro h
  cases h with
  | eval h => exact (List.mem_append.mp h).elim (fun h => h1 (.eval h)) fun h => h2 (.eval h)
  | strip h => exact (List.mem_append.mp h).elim (fun h => h1 (.strip h)) fun h => h2 (.strip h)
  | word h => exact (List.mem_append.mp h).elim (fun h => h1 (.word h)) fun h => h2 (.word h)
  | words h => exact (List.mem_append.mp h).elim (fun h => h1 (.words h)) fun h => h2 (.words h)
  | subst h a b => exact (List.mem_append.mp h).elim (fun h => h1 (.subst h a b)) fun h => h2 (.subst h a b)
  | name h a => exact (List.mem_append.mp h).elim (fun h => h1 (.name h a)) fun h => h2 (.name h a)
  | value h a b c => exact (List.mem_append.mp h).elim (fun h => h1 (.value h a b c)) fun h => h2 (.value h a b c)

private theorem involves_text {env : Env} {t : List LChar} : ¬ Involves env (Expr.text t) := by
  intro h
  cases h with
  | eval h => simp [Expr.text] at h
  | strip h => simp [Expr.text] at h
  | word h => simp [Expr.text] at h
  | words h => simp [Expr.text] at h
  | subst h => simp [Expr.text] at h
  | name h => simp [Expr.text] at h
  | value h => simp [Expr.text] at h

private theorem involves_ref {env : Env} {l : Location} {name : List Expr} {n : List LChar} {ns : List Str}
    (h1 : ¬ Involves env name) (h2 : Expands env name n ns) (h3 : ':' ∉ textOf n)
    (h4 : ∀ body, env (textOf n) = some body → ¬ Involves env body) : ¬ Involves env [.ref l name] := by
  intro h
  cases h with
  | eval h => simp at h
  | strip h => simp at h
  | word h => simp at h
  | words h => simp at h
  | subst h a b =>
    cases List.mem_singleton.mp h
    obtain ⟨rfl, _⟩ := h2.det a
    exact not_subst h3 b
  | name h a => cases List.mem_singleton.mp h; exact h1 a
  | value h a b c =>
    cases List.mem_singleton.mp h
    obtain ⟨rfl, _⟩ := h2.det a
    exact h4 _ b c

example : ∃ N, ∀ n, N ≤ n → ∃ b st', evalF noFs n demoExpr demo = .ok (b, st') := by
  obtain ⟨hw, hb, ha, hc, hd, henv⟩ := demo_spec
  have tx : ∀ s : Str, Expands demo.env (Expr.text (locate .synthetic s)) (locate .synthetic s) [] :=
    fun s => Expands.text _ _
  have it : ∀ s, ¬ Involves demo.env (txt s).flat := fun s => involves_text
  have ib : ¬ Involves demo.env (ref "b").flat := involves_ref (it _) (tx ['b']) (by decide) fun body h => by
    rw [show textOf (locate .synthetic ['b']) = ['b'] from rfl, hb] at h; cases h; exact it _
  have iA : ¬ Involves demo.env (cat [txt "x", ref "b"]).flat := involves_cat (it _) (involves_cat ib (involves_text (t := [])))
  have ia : ¬ Involves demo.env (ref "a").flat := involves_ref (it _) (tx ['a']) (by decide) fun body h => by
    rw [show textOf (locate .synthetic ['a']) = ['a'] from rfl, ha] at h; cases h; exact iA
  have ic : ¬ Involves demo.env (ref "c").flat := involves_ref (it _) (tx ['c']) (by decide) fun body h => by
    rw [show textOf (locate .synthetic ['c']) = ['c'] from rfl, hc] at h; cases h; exact it _
  have rc : Expands demo.env (ref "c").flat (locate .synthetic ['b']) [['c']] :=
    .defined (tx ['c']) (not_subst (by decide)) hc (tx ['b']) .nil
  have icc : ¬ Involves demo.env (Ast.varRef .synthetic (ref "c")).flat := involves_ref ic rc (by decide) fun body h => by
    rw [show textOf (locate .synthetic ['b']) = ['b'] from rfl, hb] at h; cases h; exact it _
  have id : ¬ Involves demo.env (ref "d").flat := involves_ref (it _) (tx ['d']) (by decide) fun body h => by
    rw [show textOf (locate .synthetic ['d']) = ['d'] from rfl, hd] at h; cases h
  have hval : ∀ x body, demo.env x = some body →
      body = (txt "b").flat ∨ (x = ['a'] ∧ body = (cat [txt "x", ref "b"]).flat) ∨ body = (txt "1").flat := by
    intro x body h
    rw [henv] at h
    split at h
    · cases h; exact .inl rfl
    · split at h
      · cases h; exact .inr (.inl ⟨by assumption, rfl⟩)
      · split at h
        · cases h; exact .inr (.inr rfl)
        · cases h
  have hedge : ∀ x y, Refers demo.env x y → x = ['a'] ∧ y = ['b'] := by
    rintro x y ⟨body, hbody, hm⟩
    rcases hval x body hbody with rfl | ⟨rfl, rfl⟩ | rfl
    · exact absurd hm not_mentions_text
    · refine ⟨rfl, ?_⟩
      rcases Mentions.split (es := (txt "x").flat) (fs := (ref "b").flat ++ []) hm with hm | hm
      · exact absurd hm not_mentions_text
      · rw [List.append_nil] at hm
        cases hm with
        | ref hm h1 h2 h3 =>
          cases List.mem_singleton.mp hm
          obtain ⟨rfl, _⟩ := (tx ['b']).det h1
          exact h3.symm
        | name hm h1 =>
          cases List.mem_singleton.mp hm
          exact absurd h1 not_mentions_text
    · exact absurd hm not_mentions_text
  refine C37_acyclic_returns_partial noFs demoExpr demo demoExpr_wf hw ?_ ?_ ?_
  · exact involves_cat ia (involves_cat icc (involves_cat id (involves_text (t := []))))
  · intro x body hbody
    rcases hval x body hbody with rfl | ⟨_, rfl⟩ | rfl
    · exact it _
    · exact iA
    · exact it _
  · intro x hx
    obtain ⟨y, h1, _⟩ := Relation.TransGen.head'_iff.mp hx
    obtain ⟨z, _, h2⟩ := Relation.TransGen.tail'_iff.mp hx
    have e := (hedge _ _ h1).1.symm.trans (hedge _ _ h2).2
    exact absurd e (by decide)

end Hastur
