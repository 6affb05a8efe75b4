import Verif.Proofs.Eval
/-
Evaluation without `$(eval)`: what it leaves alone and what it depends on.
-/
namespace Hastur

open Res

theorem HasEval.append_left {es : List Expr} (fs : List Expr) (h : HasEval es) : HasEval (fs ++ es) := by
  cases h with
  | eval h => exact .eval (List.mem_append_right _ h)
  | ref h h' => exact .ref (List.mem_append_right _ h) h'
  | strip h h' => exact .strip (List.mem_append_right _ h) h'
  | index h h' => exact .index (List.mem_append_right _ h) h'
  | word h h' => exact .word (List.mem_append_right _ h) h'
  | words h h' => exact .words (List.mem_append_right _ h) h'

theorem HasEval.append_right {es : List Expr} (fs : List Expr) (h : HasEval es) : HasEval (es ++ fs) := by
  cases h with
  | eval h => exact .eval (List.mem_append_left _ h)
  | ref h h' => exact .ref (List.mem_append_left _ h) h'
  | strip h h' => exact .strip (List.mem_append_left _ h) h'
  | index h h' => exact .index (List.mem_append_left _ h) h'
  | word h h' => exact .word (List.mem_append_left _ h) h'
  | words h h' => exact .words (List.mem_append_left _ h) h'

theorem Block.new_sens {sens : Sens} {cs : List CRef} {b : Block} (h : Block.new sens cs = .ok b) : b.sens = sens := by
  unfold Block.new Block.simplify at h
  obtain ⟨x, _, h2⟩ := bind_eq_ok.mp h
  cases h2
  rfl

/-- The value of a variable in a database. -/
def Database.valueOf (db : Database) (v : VariableName) : Option Ast := (db.getVariable v).map (·.value)

/-- What holds of an evaluation with the given result: if none of the reported variables has a value containing
`$(eval)`, nothing but the name cache changes, and the result is the same in every database that agrees on the
reported variables. -/
def Frame {α : Type} (f : St → Res (α × St)) (sens : α → Sens) (st : St) (x : α × St) : Prop :=
  (∀ v ∈ sens x.1, ∀ a, st.db.valueOf v = some a → ¬ HasEval a.flat) →
    x.2.db = st.db ∧ x.2.commandChar = st.commandChar ∧
    ∀ (db2 : Database) (c2 : Char), (∀ v ∈ sens x.1, db2.valueOf v = st.db.valueOf v) →
      f ⟨db2, st.names, c2⟩ = .ok (x.1, ⟨db2, x.2.names, c2⟩)

/-- The recursive evaluation satisfies the frame property. -/
def Rec.Frames (r : Rec) : Prop :=
  ∀ (a : Ast) (st : St) x, ¬ HasEval a.flat → r.evalInternal a st = .ok x → Frame (r.evalInternal a) (·.1) st x

theorem Rec.Frames.eval {r : Rec} (hr : r.Frames) (a : Ast) (st : St) (x : Block × St) (ha : ¬ HasEval a.flat)
    (h : r.eval a st = .ok x) : Frame (r.eval a) (·.sens) st x := by
  simp only [Rec.eval] at h
  obtain ⟨⟨⟨s, c⟩, st1⟩, h1, h2⟩ := bind_eq_ok.mp h
  obtain ⟨b, h3, h4⟩ := bind_eq_ok.mp h2
  cases h4
  have hs := Block.new_sens h3
  intro hv
  dsimp only at hs hv
  rw [hs] at hv
  obtain ⟨g1, g2, g3⟩ := hr a st _ ha h1 hv
  refine ⟨g1, g2, fun db2 c2 hd => ?_⟩
  dsimp only at hd
  rw [hs] at hd
  simp only [Rec.eval, g3 db2 c2 hd, Res.ok_bind, h3]
  rfl

theorem evalConcat_sens {r : Rec} (as : List Ast) : ∀ {sens : Sens} {out : List CRef} {st : St} {x : (Sens × List CRef) × St},
    evalConcat r as sens out st = .ok x → ∀ v ∈ sens, v ∈ x.1.1 := by
  induction as with
  | nil => intro sens out st x h v hv; cases h; exact hv
  | cons a as ih =>
    intro sens out st x h v hv
    simp only [evalConcat] at h
    obtain ⟨y, _, h2⟩ := bind_eq_ok.mp h
    exact ih h2 v (Sens.mem_union.mpr (.inl hv))

theorem evalConcat_frame {r : Rec} (hr : r.Frames) (as : List Ast) : ∀ (sens : Sens) (out : List CRef) (st : St)
    (x : (Sens × List CRef) × St), ¬ HasEval (Ast.flatList as) → evalConcat r as sens out st = .ok x →
    Frame (evalConcat r as sens out) (·.1) st x := by
  induction as with
  | nil =>
    intro sens out st x _ h
    cases h
    exact fun _ => ⟨rfl, rfl, fun _ _ _ => rfl⟩
  | cons a as ih =>
    intro sens out st x ha h hv
    simp only [evalConcat] at h
    obtain ⟨⟨⟨s, c⟩, st1⟩, h1, h2⟩ := bind_eq_ok.mp h
    have hsub := evalConcat_sens as h2
    have hs1 : ∀ v ∈ s, v ∈ x.1.1 := fun v hv => hsub v (Sens.mem_union.mpr (.inr hv))
    obtain ⟨g1, g2, g3⟩ := hr a st _ (fun hh => ha (hh.append_right _)) h1 fun v hm => hv v (hs1 v hm)
    dsimp only at g1 g2 g3
    obtain ⟨k1, k2, k3⟩ := ih _ _ _ _ (fun hh => ha (hh.append_left _)) h2 (by rw [g1]; exact hv)
    refine ⟨k1.trans g1, k2.trans g2, fun db2 c2 hd => ?_⟩
    simp only [evalConcat, g3 db2 c2 (fun v hm => hd v (hs1 v hm)), Res.ok_bind]
    exact k3 db2 c2 (by rw [g1]; exact hd)

theorem derefVariable_frame {r : Rec} (hr : r.Frames) (name : Str) (sens : Sens) (st : St) (x : (Block × Sens) × St)
    (h : derefVariable r name sens st = .ok x) :
    (∀ v ∈ sens, v ∈ x.1.2) ∧ Frame (derefVariable r name sens) (·.2) st x := by
  simp only [derefVariable] at h
  simp only [Frame, derefVariable]
  generalize st.names.internVar name = vn at h ⊢
  obtain ⟨v, names⟩ := vn
  dsimp only at *
  cases hp : st.db.getVariable v with
  | none =>
    rw [hp] at h
    cases h
    refine ⟨fun w hw => Sens.mem_insert.mpr (.inl hw), fun hv => ⟨rfl, rfl, fun db2 c2 hd => ?_⟩⟩
    have := hd v (Sens.mem_insert.mpr (.inr rfl))
    simp only [Database.valueOf, hp, Option.map_none, Option.map_eq_none_iff] at this
    rw [this]
    rfl
  | some p =>
    rw [hp] at h
    obtain ⟨⟨b, st1⟩, h1, h2⟩ := bind_eq_ok.mp h
    cases h2
    refine ⟨fun w hw => Sens.mem_insert.mpr (.inl (Sens.mem_union.mpr (.inl hw))), fun hv => ?_⟩
    dsimp only at *
    have hne : ¬ HasEval p.value.flat := hv v (Sens.mem_insert.mpr (.inr rfl)) _ (by simp [Database.valueOf, hp])
    have hbs : ∀ w ∈ b.sens, w ∈ (Sens.insert (Sens.union sens b.sens) v) :=
      fun w hw => Sens.mem_insert.mpr (.inl (Sens.mem_union.mpr (.inr hw)))
    obtain ⟨g1, g2, g3⟩ := hr.eval _ _ _ hne h1 fun w hw => hv w (hbs w hw)
    refine ⟨g1, g2, fun db2 c2 hd => ?_⟩
    have h0 := hd v (Sens.mem_insert.mpr (.inr rfl))
    simp only [Database.valueOf, hp, Option.map_some] at h0
    obtain ⟨q, hq, hqv⟩ := Option.map_eq_some_iff.mp h0
    rw [hq]
    dsimp only
    rw [hqv, g3 db2 c2 fun w hw => hd w (hbs w hw)]
    rfl

theorem evalVarRef_frame {r : Rec} (hr : r.Frames) (name : Ast) (st : St) (x : (Sens × List CRef) × St)
    (ha : ¬ HasEval name.flat) (h : evalVarRef r name st = .ok x) : Frame (evalVarRef r name) (·.1) st x := by
  simp only [evalVarRef] at h
  obtain ⟨⟨nb, st1⟩, h1, h2⟩ := bind_eq_ok.mp h
  obtain ⟨cf, h3, h4⟩ := bind_eq_ok.mp h2
  have hnb : ∀ {v}, v ∈ nb.sens ↔ v ∈ Sens.union [] nb.sens := by simp [Sens.mem_union]
  have fin : ∀ (s : Str) (y : (Block × Sens) × St), derefVariable r s (Sens.union [] nb.sens) st1 = .ok y →
      x.1.1 = y.1.2 → x.2 = y.2 →
      (∀ v ∈ x.1.1, ∀ a, st.db.valueOf v = some a → ¬ HasEval a.flat) →
      x.2.db = st.db ∧ x.2.commandChar = st.commandChar ∧
      ∀ (db2 : Database) (c2 : Char), (∀ v ∈ x.1.1, db2.valueOf v = st.db.valueOf v) →
        r.eval name ⟨db2, st.names, c2⟩ = .ok (nb, ⟨db2, st1.names, c2⟩) ∧
        derefVariable r s (Sens.union [] nb.sens) ⟨db2, st1.names, c2⟩ = .ok (y.1, ⟨db2, x.2.names, c2⟩) := by
    intro s y hy e1 e2 hv
    obtain ⟨d1, d2⟩ := derefVariable_frame hr s _ st1 y hy
    rw [← e1] at d1
    have hsub : ∀ v ∈ nb.sens, v ∈ x.1.1 := fun v hm => d1 v (hnb.mp hm)
    obtain ⟨g1, g2, g3⟩ := hr.eval _ _ _ ha h1 fun v hm => hv v (hsub v hm)
    dsimp only at g1 g2 g3
    obtain ⟨k1, k2, k3⟩ := d2 (by dsimp only; rw [← e1, g1]; exact hv)
    refine ⟨by rw [e2, k1, g1], by rw [e2, k2, g2], fun db2 c2 hd => ⟨g3 db2 c2 fun v hm => hd v (hsub v hm), ?_⟩⟩
    rw [e2]
    exact k3 db2 c2 (by dsimp only; rw [← e1, g1]; exact hd)
  cases cf with
  | done repl nk =>
    obtain ⟨n, k⟩ := nk
    dsimp only at h4
    obtain ⟨nl, a1, h4⟩ := bind_eq_ok.mp h4
    obtain ⟨nb2, a2, h4⟩ := bind_eq_ok.mp h4
    obtain ⟨kl, a3, h4⟩ := bind_eq_ok.mp h4
    obtain ⟨key, a4, h4⟩ := bind_eq_ok.mp h4
    obtain ⟨rb, a5, h4⟩ := bind_eq_ok.mp h4
    obtain ⟨s, a6, h4⟩ := bind_eq_ok.mp h4
    obtain ⟨⟨⟨value, sens⟩, st2⟩, a7, h4⟩ := bind_eq_ok.mp h4
    obtain ⟨value', a8, h4⟩ := bind_eq_ok.mp h4
    cases h4
    intro hv
    obtain ⟨g1, g2, g3⟩ := fin s _ a7 rfl rfl hv
    refine ⟨g1, g2, fun db2 c2 hd => ?_⟩
    obtain ⟨e1, e2⟩ := g3 db2 c2 hd
    dsimp only at e2 ⊢
    simp only [evalVarRef, e1, Res.ok_bind, h3, a1, a2, a3, a4, a5, a6, e2, a8]
    rfl
  | err e =>
    dsimp only at h4
    obtain ⟨s, a6, h4⟩ := bind_eq_ok.mp h4
    obtain ⟨⟨⟨value, sens⟩, st2⟩, a7, h4⟩ := bind_eq_ok.mp h4
    cases h4
    intro hv
    obtain ⟨g1, g2, g3⟩ := fin s _ a7 rfl rfl hv
    refine ⟨g1, g2, fun db2 c2 hd => ?_⟩
    obtain ⟨e1, e2⟩ := g3 db2 c2 hd
    dsimp only at e2 ⊢
    simp only [evalVarRef, e1, Res.ok_bind, h3, a6, e2]
    rfl

theorem evalStep_frame {r : Rec} (hr : r.Frames) (a : Ast) (st : St) (x : (Sens × List CRef) × St)
    (ha : ¬ HasEval a.flat) (h : evalStep r a st = .ok x) : Frame (evalStep r a) (·.1) st x := by
  cases a with
  | empty l => cases h; exact fun _ => ⟨rfl, rfl, fun _ _ _ => rfl⟩
  | constant l s => cases h; exact fun _ => ⟨rfl, rfl, fun _ _ _ => rfl⟩
  | preEvaluated l b => cases h; exact fun _ => ⟨rfl, rfl, fun _ _ _ => rfl⟩
  | concat l cs => exact evalConcat_frame hr cs [] [] st x ha h
  | varRef l n =>
    exact evalVarRef_frame hr n st x (fun hh => ha (.ref (List.mem_singleton.mpr rfl) hh)) h
  | eval l a => exact absurd (.eval (List.mem_singleton.mpr rfl)) ha
  | strip l a => cases h
  | word l i w => cases h
  | words l a => cases h

theorem recF_frames (fs : Fs) (n : Nat) : (recF fs n).Frames := by
  induction n with
  | zero => intro a st x _ h; cases h
  | succ n ih => exact fun a st x ha h => evalStep_frame ih a st x ha h

/-! ### Consulted variables -/

/-- No evaluation of the tree succeeds. -/
def Poison (a : Ast) : Prop := ∀ (fs : Fs) (n : Nat) (st : St) x, (recF fs n).evalInternal a st ≠ .ok x

/-- What holds of an evaluation that consulted `v`: it fails when the value of `v` cannot be evaluated. -/
def Depends {α : Type} (f : St → Res (α × St)) (sens : α → Sens) (st : St) (x : α × St) : Prop :=
  (∀ v ∈ sens x.1, ∀ a, st.db.valueOf v = some a → ¬ HasEval a.flat) →
    ∀ (v : VariableName) (db2 : Database) (c2 : Char) (y : α × St), v ∈ sens x.1 →
      (∀ w, w ≠ v → db2.valueOf w = st.db.valueOf w) → (∃ a, db2.valueOf v = some a ∧ Poison a) →
      f ⟨db2, st.names, c2⟩ ≠ .ok y

/-- The recursive evaluation depends on what it reports. -/
def Rec.Depends (r : Rec) : Prop :=
  ∀ (a : Ast) (st : St) x, ¬ HasEval a.flat → r.evalInternal a st = .ok x → Hastur.Depends (r.evalInternal a) (·.1) st x

/-- The recursive evaluation does not succeed on trees that cannot be evaluated. -/
def Rec.Fails (r : Rec) : Prop := ∀ a, Poison a → ∀ st x, r.eval a st ≠ .ok x

theorem Rec.Depends.eval {r : Rec} (hr : r.Depends) (a : Ast) (st : St) (x : Block × St) (ha : ¬ HasEval a.flat)
    (h : r.eval a st = .ok x) : Hastur.Depends (r.eval a) (·.sens) st x := by
  simp only [Rec.eval] at h
  obtain ⟨⟨⟨s, c⟩, st1⟩, h1, h2⟩ := bind_eq_ok.mp h
  obtain ⟨b, h3, h4⟩ := bind_eq_ok.mp h2
  cases h4
  have hs := Block.new_sens h3
  intro hv v db2 c2 y hm hd hp hy
  dsimp only at hs hv hm
  rw [hs] at hv hm
  simp only [Rec.eval] at hy
  obtain ⟨z, hz, _⟩ := bind_eq_ok.mp hy
  exact hr a st _ ha h1 hv v db2 c2 z hm hd hp hz

theorem evalConcat_depends {r : Rec} (hf : r.Frames) (hr : r.Depends) (as : List Ast) : ∀ (sens : Sens)
    (out : List CRef) (st : St) (x : (Sens × List CRef) × St), ¬ HasEval (Ast.flatList as) →
    evalConcat r as sens out st = .ok x →
    (∀ v ∈ x.1.1, ∀ a, st.db.valueOf v = some a → ¬ HasEval a.flat) →
    ∀ (v : VariableName) (db2 : Database) (c2 : Char) (y : (Sens × List CRef) × St), v ∈ x.1.1 → v ∉ sens →
      (∀ w, w ≠ v → db2.valueOf w = st.db.valueOf w) → (∃ a, db2.valueOf v = some a ∧ Poison a) →
      evalConcat r as sens out ⟨db2, st.names, c2⟩ ≠ .ok y := by
  induction as with
  | nil =>
    intro sens out st x _ h _ v db2 c2 y hm hn
    cases h
    exact absurd hm hn
  | cons a as ih =>
    intro sens out st x ha h hv v db2 c2 y hm hn hd hp hy
    simp only [evalConcat] at h hy
    obtain ⟨⟨⟨s, c⟩, st1⟩, h1, h2⟩ := bind_eq_ok.mp h
    obtain ⟨z, hz, h3⟩ := bind_eq_ok.mp hy
    have hsub := evalConcat_sens as h2
    have hs1 : ∀ v ∈ s, v ∈ x.1.1 := fun v hv => hsub v (Sens.mem_union.mpr (.inr hv))
    have ha1 : ¬ HasEval a.flat := fun hh => ha (hh.append_right _)
    by_cases hvs : v ∈ s
    · exact hr a st _ ha1 h1 (fun w hw => hv w (hs1 w hw)) v db2 c2 z hvs hd hp hz
    · obtain ⟨g1, g2, g3⟩ := hf a st _ ha1 h1 fun w hw => hv w (hs1 w hw)
      dsimp only at g1 g2 g3
      rw [g3 db2 c2 fun w hw => hd w fun e => hvs (e ▸ hw)] at hz
      cases hz
      refine ih _ _ _ x (fun hh => ha (hh.append_left _)) h2 (by rw [g1]; exact hv) v db2 c2 y hm ?_ (by rw [g1]; exact hd) hp h3
      rw [Sens.mem_union]
      rintro (h | h)
      · exact hn h
      · exact hvs h

theorem derefVariable_depends {r : Rec} (hr : r.Depends) (hp0 : r.Fails) (name : Str) (sens : Sens) (st : St)
    (x : (Block × Sens) × St) (h : derefVariable r name sens st = .ok x)
    (hv : ∀ v ∈ x.1.2, ∀ a, st.db.valueOf v = some a → ¬ HasEval a.flat)
    (v : VariableName) (db2 : Database) (c2 : Char) (y : (Block × Sens) × St) (hm : v ∈ x.1.2) (hn : v ∉ sens)
    (hd : ∀ w, w ≠ v → db2.valueOf w = st.db.valueOf w) (hp : ∃ a, db2.valueOf v = some a ∧ Poison a) :
    derefVariable r name sens ⟨db2, st.names, c2⟩ ≠ .ok y := by
  intro hy
  simp only [derefVariable] at h hy
  generalize st.names.internVar name = vn at h hy
  obtain ⟨u, names⟩ := vn
  dsimp only at *
  by_cases huv : u = v
  · subst huv
    obtain ⟨a, ha, hpa⟩ := hp
    obtain ⟨q, hq, hqa⟩ := Option.map_eq_some_iff.mp ha
    rw [hq] at hy
    obtain ⟨z, hz, _⟩ := bind_eq_ok.mp hy
    rw [hqa] at hz
    exact hp0 a hpa _ _ hz
  · have hu := hd u huv
    cases hg : st.db.getVariable u with
    | none =>
      rw [hg] at h
      cases h
      exact (Sens.mem_insert.mp hm).elim hn fun e => huv e.symm
    | some p =>
      rw [hg] at h
      obtain ⟨⟨b, st1⟩, h1, h2⟩ := bind_eq_ok.mp h
      cases h2
      simp only [Database.valueOf, hg, Option.map_some] at hu
      obtain ⟨q, hq, hqv⟩ := Option.map_eq_some_iff.mp hu
      rw [hq] at hy
      obtain ⟨z, hz, _⟩ := bind_eq_ok.mp hy
      rw [hqv] at hz
      have hbs : ∀ w ∈ b.sens, w ∈ (Sens.insert (Sens.union sens b.sens) u) :=
        fun w hw => Sens.mem_insert.mpr (.inl (Sens.mem_union.mpr (.inr hw)))
      have hne : ¬ HasEval p.value.flat := hv u (Sens.mem_insert.mpr (.inr rfl)) _ (by simp [Database.valueOf, hg])
      have hvb : v ∈ b.sens := by
        rcases Sens.mem_insert.mp hm with h | h
        · exact (Sens.mem_union.mp h).elim (fun h => absurd h hn) id
        · exact absurd h.symm huv
      exact hr.eval _ _ _ hne h1 (fun w hw => hv w (hbs w hw)) v db2 c2 z hvb hd hp hz

theorem evalVarRef_depends {r : Rec} (hf : r.Frames) (hr : r.Depends) (hp0 : r.Fails) (name : Ast) (st : St)
    (x : (Sens × List CRef) × St) (ha : ¬ HasEval name.flat) (h : evalVarRef r name st = .ok x) :
    Hastur.Depends (evalVarRef r name) (·.1) st x := by
  intro hv v db2 c2 y hm hd hp hy
  simp only [evalVarRef] at h hy
  obtain ⟨⟨nb, st1⟩, h1, h2⟩ := bind_eq_ok.mp h
  obtain ⟨cf, h3, h4⟩ := bind_eq_ok.mp h2
  obtain ⟨nb', hnb', hy2⟩ := bind_eq_ok.mp hy
  have hnb : ∀ {v}, v ∈ nb.sens ↔ v ∈ Sens.union [] nb.sens := by simp [Sens.mem_union]
  have hsub : ∀ w ∈ nb.sens, w ∈ x.1.1 := by
    cases cf with
    | done repl nk =>
      obtain ⟨n, k⟩ := nk
      dsimp only at h4
      obtain ⟨nl, a1, h4⟩ := bind_eq_ok.mp h4
      obtain ⟨nb2, a2, h4⟩ := bind_eq_ok.mp h4
      obtain ⟨kl, a3, h4⟩ := bind_eq_ok.mp h4
      obtain ⟨key, a4, h4⟩ := bind_eq_ok.mp h4
      obtain ⟨rb, a5, h4⟩ := bind_eq_ok.mp h4
      obtain ⟨s, a6, h4⟩ := bind_eq_ok.mp h4
      obtain ⟨⟨⟨value, sens⟩, st2⟩, a7, h4⟩ := bind_eq_ok.mp h4
      obtain ⟨value', a8, h4⟩ := bind_eq_ok.mp h4
      cases h4
      exact fun w hw => (derefVariable_frame hf s _ st1 _ a7).1 w (hnb.mp hw)
    | err e =>
      dsimp only at h4
      obtain ⟨s, a6, h4⟩ := bind_eq_ok.mp h4
      obtain ⟨⟨⟨value, sens⟩, st2⟩, a7, h4⟩ := bind_eq_ok.mp h4
      cases h4
      exact fun w hw => (derefVariable_frame hf s _ st1 _ a7).1 w (hnb.mp hw)
  by_cases hvn : v ∈ nb.sens
  · exact hr.eval _ _ _ ha h1 (fun w hw => hv w (hsub w hw)) v db2 c2 nb' hvn hd hp hnb'
  obtain ⟨g1, g2, g3⟩ := hf.eval _ _ _ ha h1 fun w hw => hv w (hsub w hw)
  dsimp only at g1 g2 g3
  rw [g3 db2 c2 fun w hw => hd w fun e => hvn (e ▸ hw)] at hnb'
  cases hnb'
  dsimp only at hy2
  rw [h3] at hy2
  have hvn' : v ∉ Sens.union [] nb.sens := fun h => hvn (hnb.mpr h)
  cases cf with
  | done repl nk =>
    obtain ⟨n, k⟩ := nk
    dsimp only at h4
    obtain ⟨nl, a1, h4⟩ := bind_eq_ok.mp h4
    obtain ⟨nb2, a2, h4⟩ := bind_eq_ok.mp h4
    obtain ⟨kl, a3, h4⟩ := bind_eq_ok.mp h4
    obtain ⟨key, a4, h4⟩ := bind_eq_ok.mp h4
    obtain ⟨rb, a5, h4⟩ := bind_eq_ok.mp h4
    obtain ⟨s, a6, h4⟩ := bind_eq_ok.mp h4
    obtain ⟨⟨⟨value, sens⟩, st2⟩, a7, h4⟩ := bind_eq_ok.mp h4
    obtain ⟨value', a8, h4⟩ := bind_eq_ok.mp h4
    cases h4
    simp only [Res.ok_bind, a1, a2, a3, a4, a5, a6] at hy2
    obtain ⟨z, hz, _⟩ := bind_eq_ok.mp hy2
    exact derefVariable_depends hr hp0 s _ st1 _ a7 (by rw [g1]; exact hv) v db2 c2 z hm hvn' (by rw [g1]; exact hd) hp hz
  | err e =>
    dsimp only at h4
    obtain ⟨s, a6, h4⟩ := bind_eq_ok.mp h4
    obtain ⟨⟨⟨value, sens⟩, st2⟩, a7, h4⟩ := bind_eq_ok.mp h4
    cases h4
    simp only [Res.ok_bind, a6] at hy2
    obtain ⟨z, hz, _⟩ := bind_eq_ok.mp hy2
    exact derefVariable_depends hr hp0 s _ st1 _ a7 (by rw [g1]; exact hv) v db2 c2 z hm hvn' (by rw [g1]; exact hd) hp hz

theorem recF_fails (fs : Fs) (n : Nat) : (recF fs n).Fails := by
  intro a hp st x h
  simp only [Rec.eval] at h
  obtain ⟨z, hz, _⟩ := bind_eq_ok.mp h
  exact hp fs n st z hz

theorem recF_depends (fs : Fs) (n : Nat) : (recF fs n).Depends := by
  induction n with
  | zero => intro a st x _ h; cases h
  | succ n ih =>
    intro a st x ha h
    have h : evalStep (recF fs n) a st = .ok x := h
    show Hastur.Depends (evalStep (recF fs n) a) _ st x
    cases a with
    | empty l => cases h; intro _ v _ _ _ hm; simp at hm
    | constant l s => cases h; intro _ v _ _ _ hm; simp at hm
    | preEvaluated l b => cases h; intro _ v _ _ _ hm; simp at hm
    | concat l cs =>
      intro hv v db2 c2 y hm hd hp
      exact evalConcat_depends (recF_frames fs n) ih cs [] [] st x ha h hv v db2 c2 y hm (by simp) hd hp
    | varRef l name =>
      exact evalVarRef_depends (recF_frames fs n) ih (recF_fails fs n) name st x
        (fun hh => ha (.ref (List.mem_singleton.mpr rfl) hh)) h
    | eval l a => exact absurd (.eval (List.mem_singleton.mpr rfl)) ha
    | strip l a => cases h
    | word l i w => cases h
    | words l a => cases h

end Hastur
