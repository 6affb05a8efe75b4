import Verif.Proofs.KeepParse
import Verif.Proofs.Grow
/-
Whatever the engine stores is in the world of its names, for every family of worlds that grows with the names and has
the texts of the makefiles.
-/
namespace Hastur

open Res

/-- What is needed of a family of worlds. -/
structure Worlds (fs : Fs) (w : NameCache → World) : Prop where
  closed : ∀ n, (w n).Closed
  var : ∀ (n : NameCache) (s : Str), (w n).Le (w (n.internVar s).2) ∧ (w (n.internVar s).2).var (n.internVar s).1
  file : ∀ (n : NameCache) (s : Str), (w n).Le (w (n.internFile s).2) ∧ (w (n.internFile s).2).file (n.internFile s).1
  text : ∀ (n : NameCache) (name s : Str), fs name = .text s →
    ∀ x ∈ locate (.source 1 1 (n.internFile name).1) s, (w (n.internFile name).2).letter x

/-- The state is in the world of its names. -/
def St.In (w : NameCache → World) (st : St) : Prop := Database.In (w st.names) st.db

/-- What a stateful step does: names are added, the state stays in its world, and so is the result. -/
def Keep {α : Type} (w : NameCache → World) (st : St) (Q : World → α → Prop) (x : Res (α × St)) : Prop :=
  Post (fun o => (w st.names).Le (w o.2.names) ∧ o.2.In w ∧ Q (w o.2.names) o.1) x

namespace Keep
variable {w : NameCache → World} {α β : Type} {st : St} {Q : World → α → Prop} {Q' : World → β → Prop}

theorem ok {a : α} (hs : st.In w) (ha : Q (w st.names) a) : Keep w st Q (.ok (a, st)) :=
  Post.ok ⟨World.Le.refl _, hs, ha⟩

theorem bind {x : Res (α × St)} {f : α × St → Res (β × St)} (h : Keep w st Q x)
    (hf : ∀ a st', (w st.names).Le (w st'.names) → st'.In w → Q (w st'.names) a → Keep w st' Q' (f (a, st'))) :
    Keep w st Q' (x >>= f) := by
  refine Post.bind h fun o ho => ?_
  obtain ⟨a, st'⟩ := o
  obtain ⟨h1, h2, h3⟩ := ho
  exact Post.mono (hf a st' h1 h2 h3) fun o ho => ⟨h1.trans ho.1, ho.2⟩

theorem after {st' : St} (h : (w st.names).Le (w st'.names)) {x : Res (α × St)} (hx : Keep w st' Q x) : Keep w st Q x :=
  Post.mono hx fun _ ho => ⟨h.trans ho.1, ho.2⟩

theorem any {γ : Type} {x : Res γ} {f : γ → Res (α × St)} (hf : ∀ a, Keep w st Q (f a)) : Keep w st Q (x >>= f) :=
  Post.bind_any hf

theorem mono {Q'' : World → α → Prop} {x : Res (α × St)} (h : Keep w st Q x) (hq : ∀ W a, Q W a → Q'' W a) :
    Keep w st Q'' x := Post.mono h fun _ ho => ⟨ho.1, ho.2.1, hq _ _ ho.2.2⟩

end Keep

/-- What evaluation yields: known variables and references. -/
def PiecesIn (W : World) (x : Sens × List CRef) : Prop := (∀ v ∈ x.1, W.var v) ∧ CRef.InList W x.2

/-- The recursive calls stay in the world. -/
structure Rec.Sound (w : NameCache → World) (r : Rec) : Prop where
  evalInternal : ∀ a st, st.In w → Ast.In (w st.names) a → Keep w st PiecesIn (r.evalInternal a st)
  processBlock : ∀ b st, st.In w → Block.In (w st.names) b → Keep w st (fun _ _ => True) (r.processBlock b st)

/-- What a variable line asks for. -/
def VarAction.In (W : World) (a : VarAction) : Prop :=
  W.var a.name ∧ match a.action with
    | .define p => Ast.In W p.value
    | .append v => Ast.In W v

theorem VarAction.In.mono {W W' : World} (h : W.Le W') {a : VarAction} (ha : a.In W) : a.In W' := by
  obtain ⟨name, mods, action⟩ := a
  refine ⟨h.var _ ha.1, ?_⟩
  have h2 := ha.2
  cases action <;> exact Ast.In.mono h _ h2

/-- A rule that is being read. -/
structure ProtoRule.In (W : World) (r : ProtoRule) : Prop where
  targets : ∀ b ∈ r.targets, Block.In W b
  deps : ∀ b ∈ r.deps, Block.In W b
  recipe : ∀ a ∈ r.recipe, Ast.In W a

theorem ProtoRule.In.mono {W W' : World} (h : W.Le W') {r : ProtoRule} (hr : r.In W) : r.In W' :=
  ⟨fun b hb => (hr.targets b hb).mono h, fun b hb => (hr.deps b hb).mono h, fun b hb => (hr.recipe b hb).mono h⟩

/-- The state of the line parser. -/
structure PState.In (W : World) (p : PState) : Prop where
  rule : ∀ r, p.currentRule = some r → ProtoRule.In W r
  define : ∀ d, p.currentDefine = some d → W.var d.var

theorem PState.In.mono {W W' : World} (h : W.Le W') {p : PState} (hp : p.In W) : p.In W' :=
  ⟨fun r hr => (hp.rule r hr).mono h, fun d hd => h.var _ (hp.define d hd)⟩

/-- What a target line asks for. -/
def TargetAction.In (W : World) : TargetAction → Prop
  | .noAction => True
  | .newRule targets deps _ command =>
    (∀ b ∈ targets, Block.In W b) ∧ (∀ b ∈ deps, Block.In W b) ∧ ∀ a, command = some a → Ast.In W a
  | .targetVariable _ _ => True

theorem TargetAction.In.mono {W W' : World} (h : W.Le W') {a : TargetAction} (ha : a.In W) : a.In W' := by
  cases a with
  | noAction => trivial
  | targetVariable => trivial
  | newRule => exact ⟨fun b hb => (ha.1 b hb).mono h, fun b hb => (ha.2.1 b hb).mono h, fun b hb => (ha.2.2 b hb).mono h⟩

theorem Directive.In.mono {W W' : World} (h : W.Le W') {a : Directive} (ha : a.In W) : a.In W' := by
  cases a <;> exact Ast.In.mono h _ ha

/-! ### The database -/

section db
variable {W : World} {db : Database}

theorem Database.empty_in : Database.In W Database.empty :=
  ⟨fun _ _ h => by simp [Database.getVariable, Database.empty, AMap.get, AMap.empty] at h,
   fun _ _ _ h => by simp [Database.getVariableForTarget, Database.empty, AMap.get, AMap.empty] at h,
   fun _ _ h => by simp [Database.getRule, Database.empty, AMap.get, AMap.empty] at h⟩

theorem Database.insertVariable_in (h : Database.In W db) {v : VariableName} {p : VarParams} (hv : W.var v)
    (hp : Ast.In W p.value) : Database.In W { db with «variables» := db.variables.insert v p } := by
  refine ⟨fun u q hq => ?_, h.targetVariables, h.rules⟩
  simp only [Database.getVariable, AMap.get_insert] at hq
  split at hq
  · rename_i e; cases hq; subst e; exact ⟨hv, hp⟩
  · exact h.variables u q hq

theorem Database.insertRule_in (h : Database.In W db) {f : FileName} {r : Rule} (hf : W.file f)
    (hr : Rule.In W r) : Database.In W { db with rules := db.rules.insert f r } := by
  refine ⟨h.variables, h.targetVariables, fun u q hq => ?_⟩
  simp only [Database.getRule, AMap.get_insert] at hq
  split at hq
  · rename_i e; cases hq; subst e; exact ⟨hf, hr⟩
  · exact h.rules u q hq

theorem Database.append_in (hw : W.Closed) (h : Database.In W db) {v : VariableName} {loc : Location} {p : VarParams}
    {space : Bool} (hv : W.var v) (hl : W.Loc loc) (hp : Ast.In W p.value) :
    Database.In W (db.appendToVariable v loc p space) := by
  unfold Database.appendToVariable
  split
  · exact Database.insertVariable_in h hv hp
  · rename_i old ho
    have hold := (h.variables v old ho).2
    refine Database.insertVariable_in h hv (Ast.collapsingConcat_in hl ?_)
    have hs : Ast.In W (Ast.mkConstant (.synthetic [' '])) :=
      ⟨rfl, .inl rfl, by simpa [LStr.synthetic, LStr.ltext, locate] using hw.space⟩
    split <;> simp [hold, hp, hs]

end db

section db
variable {fs : Fs} {w : NameCache → World} (hw : Worlds fs w)
include hw

theorem internBlocks_in (bs : List Block) : ∀ (n n' : NameCache) (out : List FileName),
    Database.internBlocks n bs = .ok (out, n') → (w n).Le (w n') ∧ ∀ f ∈ out, (w n').file f := by
  induction bs with
  | nil => intro n n' out e; cases e; exact ⟨World.Le.refl _, by simp⟩
  | cons b bs ih =>
    intro n n' out e
    unfold Database.internBlocks at e
    obtain ⟨s, _, e⟩ := bind_eq_ok.mp e
    obtain ⟨h1, h2⟩ := hw.file n s
    revert e h1 h2
    generalize n.internFile s = x
    obtain ⟨f, m⟩ := x
    intro e h1 h2
    dsimp only at e h1 h2
    obtain ⟨⟨out', m'⟩, e1, e⟩ := bind_eq_ok.mp e
    cases e
    obtain ⟨g1, g2⟩ := ih _ _ _ e1
    refine ⟨h1.trans g1, fun f' hf => ?_⟩
    rcases List.mem_cons.mp hf with rfl | hf
    · exact g1.file _ h2
    · exact g2 _ hf

omit hw in
theorem foldl_setInsert_mem {a : List FileName} : ∀ {s : List FileName} {f : FileName}, f ∈ a.foldl Database.setInsert s → f ∈ s ∨ f ∈ a := by
  induction a with
  | nil => intro s f h; exact .inl h
  | cons x a ih =>
    intro s f h
    rcases ih h with h | h
    · unfold Database.setInsert at h
      split at h
      · exact .inl h
      · rcases List.mem_append.mp h with h | h
        · exact .inl h
        · exact .inr (by rw [List.mem_singleton.mp h]; exact List.mem_cons_self ..)
    · exact .inr (List.mem_cons_of_mem _ h)

theorem protoTargets_in {deps : List Block} {depNames : List FileName} {recipe : List Ast} {ty : RuleType}
    (ts : List Block) : ∀ (db db' : Database) (n n' : NameCache), Database.In (w n) db →
    (∀ b ∈ deps, Block.In (w n) b) → (∀ f ∈ depNames, (w n).file f) → (∀ a ∈ recipe, Ast.In (w n) a) →
    (∀ b ∈ ts, Block.In (w n) b) → Database.protoTargets deps depNames recipe ty ts db n = .ok (db', n') →
    (w n).Le (w n') ∧ Database.In (w n') db' := by
  induction ts with
  | nil => intro db db' n n' h _ _ _ _ e; cases e; exact ⟨World.Le.refl _, h⟩
  | cons t ts ih =>
    intro db db' n n' h hd hn hr ht e
    unfold Database.protoTargets at e
    obtain ⟨s, _, e⟩ := bind_eq_ok.mp e
    obtain ⟨h1, h2⟩ := hw.file n s
    revert e h1 h2
    generalize n.internFile s = x
    obtain ⟨f, m⟩ := x
    intro e h1 h2
    dsimp only at e h1 h2
    have db1 := h.mono h1
    have hd := fun b hb => (hd b hb).mono h1
    have hn := fun f hf => h1.file f (hn f hf)
    have hr := fun a ha => (hr a ha).mono h1
    have fresh : Rule.In (w m) ⟨t, f, deps, depNames, recipe, ty⟩ :=
      ⟨(ht t (List.mem_cons_self ..)).mono h1, h2, hd, hn, hr⟩
    obtain ⟨g1, g2⟩ := ih _ _ _ _ (Database.insertRule_in db1 h2 (by
        split
        · split
          · rename_i r hr'
            obtain ⟨k1, k2⟩ := db1.rules f r hr'
            refine ⟨k2.target, k2.targetName, ?_, ?_, k2.recipe⟩
            · intro d hd'
              rcases List.mem_append.mp hd' with h | h
              · exact k2.deps d h
              · exact hd d h
            · intro f hf
              rcases foldl_setInsert_mem hf with h | h
              · exact k2.depNames f h
              · exact hn f h
          · exact fresh
        · exact fresh)) hd hn hr (fun b hb => (ht b (List.mem_cons_of_mem _ hb)).mono h1) e
    exact ⟨h1.trans g1, g2⟩

theorem fromProtorule_in {db db' : Database} {n n' : NameCache} {r : ProtoRule} (h : Database.In (w n) db)
    (hr : r.In (w n)) (e : db.fromProtorule n r = .ok (db', n')) : (w n).Le (w n') ∧ Database.In (w n') db' := by
  unfold Database.fromProtorule at e
  obtain ⟨⟨out, m⟩, e1, e⟩ := bind_eq_ok.mp e
  obtain ⟨h1, h2⟩ := internBlocks_in hw _ _ _ _ e1
  obtain ⟨g1, g2⟩ := protoTargets_in hw _ _ _ _ _ (h.mono h1) (fun b hb => (hr.deps b hb).mono h1)
    (fun f hf => by
      rcases foldl_setInsert_mem hf with h | h
      · simp at h
      · exact h2 f h) (fun a ha => (hr.recipe a ha).mono h1) (fun b hb => (hr.targets b hb).mono h1) e
  exact ⟨h1.trans g1, g2⟩

end db

/-! ### Evaluation -/

section eval
variable {fs : Fs} {w : NameCache → World} (hw : Worlds fs w) {r : Rec} (h : Rec.Sound w r)
include h

theorem Rec.Sound.eval {a : Ast} {st : St} (hs : st.In w) (ha : Ast.In (w st.names) a) :
    Keep w st Block.In (r.eval a st) := by
  unfold Rec.eval
  refine Keep.bind (h.evalInternal a st hs ha) fun x st' _ hs' hx => ?_
  exact Post.bind (Block.new_in hx.1 hx.2) fun b hb => Keep.ok hs' hb

theorem evalConcat_in (as : List Ast) : ∀ (sens : Sens) (out : List CRef) (st : St), st.In w →
    (∀ a ∈ as, Ast.In (w st.names) a) → PiecesIn (w st.names) (sens, out) → Keep w st PiecesIn (evalConcat r as sens out st) := by
  induction as with
  | nil => intro _ _ _ hs _ hx; exact Keep.ok hs hx
  | cons a as ih =>
    intro sens out st hs ha hx
    unfold evalConcat
    refine Keep.bind (h.evalInternal a st hs (ha a (List.mem_cons_self ..))) fun x st' le hs' hx' => ?_
    obtain ⟨s, c⟩ := x
    refine ih _ _ _ hs' (fun b hb => (ha b (List.mem_cons_of_mem _ hb)).mono le) ⟨fun v hv => ?_, ?_⟩
    · rcases Sens.mem_union.mp hv with hv | hv
      · exact le.var v (hx.1 v hv)
      · exact hx'.1 v hv
    · exact CRef.inList_append.mpr ⟨CRef.InList.mono le _ hx.2, hx'.2⟩

include hw

theorem derefVariable_in {name : Str} {sens : Sens} {st : St} (hs : st.In w) (hv : ∀ v ∈ sens, (w st.names).var v) :
    Keep w st (fun W x => Block.In W x.1 ∧ ∀ v ∈ x.2, W.var v) (derefVariable r name sens st) := by
  unfold derefVariable
  obtain ⟨le, hvar⟩ := hw.var st.names name
  have hdb := hs.mono le
  refine Keep.after (st' := { st with names := (st.names.internVar name).2 }) le ?_
  dsimp only
  split
  · rename_i p hp
    refine Keep.bind (h.eval (st := { st with names := (st.names.internVar name).2 }) hdb (hdb.variables _ p hp).2) fun b st' le' hs' hb => ?_
    refine Keep.ok hs' ⟨hb, fun u hu => ?_⟩
    rcases Sens.mem_insert.mp hu with hu | hu
    · rcases Sens.mem_union.mp hu with hu | hu
      · exact le'.var u (le.var u (hv u hu))
      · exact (Block.in_iff.mp hb).1 u hu
    · subst hu; exact le'.var _ hvar
  · refine Keep.ok (Q := fun W (x : Block × Sens) => Block.In W x.1 ∧ ∀ v ∈ x.2, W.var v) (st := { st with names := (st.names.internVar name).2 }) hdb ⟨Block.empty_in, fun u hu => ?_⟩
    rcases Sens.mem_insert.mp hu with hu | hu
    · exact le.var u (hv u hu)
    · subst hu; exact hvar

theorem evalVarRef_in {name : Ast} {st : St} (hs : st.In w) (ha : Ast.In (w st.names) name) :
    Keep w st PiecesIn (evalVarRef r name st) := by
  unfold evalVarRef
  refine Keep.bind (h.eval hs ha) fun nameB st hle hs hn => ?_
  have hsens : ∀ v ∈ Sens.union [] nameB.sens, (w st.names).var v := by
    intro v hv
    rcases Sens.mem_union.mp hv with hv | hv
    · simp at hv
    · exact (Block.in_iff.mp hn).1 v hv
  dsimp only
  refine Post.bind (colonFind_in (Block.span_in hn)) fun c hc => ?_
  split
  · rename_i replacement n k
    obtain ⟨h1, h2, h3⟩ := hc
    dsimp only at h2 h3
    refine Post.bind_any fun nl => ?_
    refine Post.bind (Span.toNewBlock_in (Span.sliceTo_in h2 nl)) fun nameB' hn' => ?_
    refine Post.bind_any fun kl => ?_
    refine Post.bind (Span.toNewBlock_in (Span.sliceTo_in h3 kl)) fun key hk => ?_
    refine Post.bind (Span.toNewBlock_in h1) fun repl hr => ?_
    refine Post.bind_any fun s => ?_
    refine Keep.bind (derefVariable_in hw h hs hsens) fun x st' le hs' hx => ?_
    obtain ⟨value, sens⟩ := x
    obtain ⟨hv, hse⟩ := hx
    dsimp only at hv hse ⊢
    refine Post.bind (doSubref_in (hw.closed _) hse hv (Block.In.mono le _ hk) (Block.In.mono le _ hr)) fun b hb => ?_
    refine Keep.ok hs' ⟨hse, ?_, trivial⟩
    exact CRef.ofNode_in ⟨Block.In.mono le _ hn', Block.In.mono le _ hk, Block.In.mono le _ hr, hb⟩
  · refine Post.bind_any fun s => ?_
    refine Keep.bind (derefVariable_in hw h hs hsens) fun x st' le hs' hx => ?_
    obtain ⟨value, sens⟩ := x
    obtain ⟨hv, hse⟩ := hx
    exact Keep.ok hs' ⟨hse, CRef.ofNode_in ⟨Block.In.mono le _ hn, hv⟩, trivial⟩

theorem evalStep_in {a : Ast} {st : St} (hs : st.In w) (ha : Ast.In (w st.names) a) :
    Keep w st PiecesIn (evalStep r a st) := by
  cases a with
  | constant l s => exact Keep.ok hs ⟨by simp, CRef.ofNode_in ha.2.2, trivial⟩
  | concat l cs => exact evalConcat_in h _ _ _ _ hs (Ast.inList_iff.mp ha.2) ⟨by simp, trivial⟩
  | preEvaluated l b => exact Keep.ok hs ⟨by simp, (Block.in_iff.mp ha.2).2⟩
  | varRef l n => exact evalVarRef_in hw h hs ha.2
  | eval l a =>
    unfold evalStep
    refine Keep.bind (h.eval hs ha.2) fun b st le hs hb => ?_
    dsimp only
    have hsens : ∀ v ∈ Sens.union [] b.sens, (w st.names).var v := by
      intro v hv
      rcases Sens.mem_union.mp hv with hv | hv
      · simp at hv
      · exact (Block.in_iff.mp hb).1 v hv
    refine Post.bind (Block.new_in hsens ⟨CRef.ofNode_in hb, trivial⟩) fun blk hblk => ?_
    refine Keep.bind (h.processBlock blk st hs hblk) fun res st' le' hs' _ => ?_
    dsimp only
    split
    · exact Keep.ok hs' ⟨fun v hv => le'.var v (hsens v hv), trivial⟩
    · exact Post.panic _
  | empty l => exact Keep.ok hs ⟨by simp, trivial⟩
  | strip => exact Post.panic _
  | word => exact Post.panic _
  | words => exact Post.panic _

/-! ### Variable lines -/

theorem evalName_in {a : Ast} {st : St} (hs : st.In w) (ha : Ast.In (w st.names) a) :
    Keep w st (fun W v => W.var v) (evalName r a st) := by
  unfold evalName
  refine Keep.bind (h.eval hs ha) fun b st le hs hb => ?_
  dsimp only
  refine Post.bind_any fun s => ?_
  obtain ⟨le, hvar⟩ := hw.var st.names (trim s)
  exact Keep.after le (Keep.ok (Q := fun W v => W.var v)
    (st := { st with names := (st.names.internVar (trim s)).2 }) (hs.mono le) hvar)

/-- The result of a stateful line parser. -/
abbrev IResIn {α : Type} (Q : World → α → Prop) (W : World) (x : IRes α) : Prop := IRes.In W (Q W) x

theorem parseVariableAssignment_in {mods : Modifiers} {i : Span} {st : St} (hs : st.In w) (hi : i.In (w st.names)) :
    Keep w st (IResIn VarAction.In) (parseVariableAssignment r mods i st) := by
  unfold parseVariableAssignment
  refine Post.bind (splitAssignment_in (hw.closed _) hi) fun x hx => ?_
  split
  · exact Keep.ok hs trivial
  · obtain ⟨h1, h2, h3, h4⟩ := hx
    dsimp only at h2 h3 h4
    refine Keep.bind (evalName_in hw h hs h2) fun v st1 le hs1 hv => ?_
    dsimp only
    split
    · refine Keep.bind (h.eval hs1 (h4.mono le)) fun b st2 le2 hs2 hb => ?_
      dsimp only
      refine Post.bind (Span.location_in ((h3.mono le).mono le2)) fun o ho => ?_
      refine Post.bind (runwrap_post ho) fun l hl => ?_
      exact Keep.ok hs2 ⟨(h1.mono le).mono le2, le2.var _ hv, hl, hb⟩
    · exact Keep.ok hs1 ⟨h1.mono le, hv, h4.mono le⟩
    · exact Keep.ok hs1 ⟨h1.mono le, hv, h4.mono le⟩

omit h in
theorem defineWholeName_in {mods : Modifiers} {i : Span} {st : St} (hs : st.In w) (hi : i.In (w st.names)) :
    Keep w st (IResIn VarAction.In) (defineWholeName mods i st) := by
  unfold defineWholeName
  refine Post.bind_any fun s => ?_
  obtain ⟨le, hvar⟩ := hw.var st.names (trim s)
  refine Keep.after (st' := { st with names := (st.names.internVar (trim s)).2 }) le ?_
  dsimp only
  refine Post.bind (Span.sliceFrom_in (hi.mono le) _) fun rest hr => ?_
  exact Keep.ok (Q := IResIn VarAction.In) (st := { st with names := (st.names.internVar (trim s)).2 }) (hs.mono le)
    ⟨hr, hvar, Ast.mkEmpty_in⟩

theorem parseDefineHead_in {mods : Modifiers} {i : Span} {st : St} (hs : st.In w) (hi : i.In (w st.names)) :
    Keep w st (IResIn VarAction.In) (parseDefineHead r mods i st) := by
  unfold parseDefineHead
  refine Post.bind (PIn.andThen (Q' := fun x => Span.In (w st.names) x.1) (parseAssignmentOperator_in hi)
    fun i x hi hx => PIn.andThen (whitespace_in hi) fun i _ hi _ => PIn.done hi hx) fun x hx => ?_
  split
  · split
    · refine Post.bind (parseAst_in (hw.closed _) hx.2) fun y hy => ?_
      split
      · exact Keep.ok hs trivial
      · refine Keep.bind (evalName_in hw h hs hy.2) fun v st1 le hs1 hv => ?_
        dsimp only
        refine Keep.ok hs1 ⟨hx.1.mono le, hv, ?_⟩
        split
        · rename_i heq; split at heq
          · cases heq
          · cases heq; exact Ast.mkEmpty_in
        · rename_i heq; split at heq
          · cases heq; exact Ast.mkEmpty_in
          · cases heq
    · exact defineWholeName_in hw hs hi
  · exact defineWholeName_in hw hs hi

theorem modifierLoop_in (n : Nat) : ∀ (mods : Modifiers) (i : Span) (st : St), st.In w → i.In (w st.names) →
    Keep w st (IResIn VarAction.In) (modifierLoop r n mods i st) := by
  induction n with
  | zero => intros; exact Post.fuel
  | succ n ih =>
    intro mods i st hs hi
    unfold modifierLoop
    refine Keep.bind (parseVariableAssignment_in hw h hs hi) fun x st1 le hs1 hx => ?_
    have hi1 := hi.mono le
    dsimp only
    split
    · exact Keep.ok hs1 hx
    · exact Keep.ok hs1 trivial
    · exact Keep.ok hs1 trivial
    · refine Post.bind (modifierKeyword_in hi1) fun y hy => ?_
      split
      · exact Keep.ok hs1 trivial
      · split
        · exact ih _ _ _ hs1 hy.1
        · exact ih _ _ _ hs1 hy.1
        · exact ih _ _ _ hs1 hy.1
        · exact parseDefineHead_in hw h hs1 hy.1
        · exact Post.panic _

theorem parseVariableLine_in {i : Span} {st : St} (hs : st.In w) (hi : i.In (w st.names)) :
    Keep w st (IResIn VarAction.In) (parseVariableLine r i st) := by
  unfold parseVariableLine
  refine Post.bind (whitespace_in hi) fun x hx => ?_
  split
  · exact Keep.ok hs trivial
  · split
    · exact Keep.ok hs trivial
    · exact modifierLoop_in hw h _ _ _ _ hs hx.1

/-! ### Target lines -/

/-- What an expansion or an error gives. -/
def ExceptIn {α : Type} (Q : World → α → Prop) (W : World) : Except NErr α → Prop
  | .ok a => Q W a
  | .error _ => True

theorem expandSegment_in {i : Span} {st : St} (hs : st.In w) (hi : i.In (w st.names)) :
    Keep w st (ExceptIn Block.In) (expandSegment r i st) := by
  unfold expandSegment
  refine Post.bind (parseAst_in (hw.closed _) hi) fun x hx => ?_
  split
  · exact Keep.ok hs trivial
  · exact Keep.bind (h.eval hs hx.2) fun b st le hs hb => Keep.ok hs hb

/-- An optional block. -/
def OptIn (W : World) (o : Option Block) : Prop := ∀ b, o = some b → Block.In W b

omit hw h in
theorem OptIn.mono {W W' : World} (le : W.Le W') {o : Option Block} (ho : OptIn W o) : OptIn W' o :=
  fun b hb => (ho b hb).mono le

theorem semicolonInWord_in {b : Block} {l : Span} {p : Option Block} {st : St} (hs : st.In w)
    (hb : Block.In (w st.names) b) (hl : l.In (w st.names)) (hp : OptIn (w st.names) p) :
    Keep w st (ExceptIn fun W x => Block.In W x.1 ∧ Span.In W x.2.1 ∧ OptIn W x.2.2) (semicolonInWord r b l p st) := by
  unfold semicolonInWord
  split
  · exact Keep.ok hs ⟨hb, hl, hp⟩
  · refine Post.bind (takeUntilUnquote_in (Block.span_in hb) _) fun x hx => ?_
    split
    · refine Post.bind (Span.toNewBlock_in (hx.2 _ rfl).2) fun pc hpc => ?_
      refine Keep.bind (expandSegment_in hw h hs hl) fun e st1 le hs1 he => ?_
      dsimp only
      split
      · exact Keep.ok hs1 trivial
      · refine Post.bind (Block.pushAll_in (Block.In.mono le _ hpc) (Block.span_in he)) fun pc hpc => ?_
        refine Post.bind (Span.sliceFrom_in (hl.mono le) _) fun ln hln => ?_
        refine Keep.ok hs1 ⟨Block.In.mono le _ hx.1, hln, ?_⟩
        rintro _ ⟨⟩; exact hpc
    · exact Keep.ok hs ⟨hb, hl, by simp [OptIn]⟩

/-- What the word loop ends with. -/
def WordLoop.In (W : World) : WordLoop → Prop
  | .err _ => True
  | .noAction => True
  | .finished preColon afterColon lineNext postSemi _ =>
    Block.In W preColon ∧ OptIn W afterColon ∧ Span.In W lineNext ∧ OptIn W postSemi

theorem wordLoop_in (n : Nat) : ∀ (l mw : Span) (t : MWordEnd) (b : Block) (p : Option Block) (st : St), st.In w →
    l.In (w st.names) → mw.In (w st.names) → Block.In (w st.names) b → OptIn (w st.names) p →
    Keep w st WordLoop.In (wordLoop r n l mw t b p st) := by
  induction n with
  | zero => intros; exact Post.fuel
  | succ n ih =>
    intro l mw t b p st hs hl hmw hb hp
    unfold wordLoop
    refine Keep.bind (expandSegment_in hw h hs hmw) fun e st1 le hs1 he => ?_
    dsimp only
    split
    · exact Keep.ok hs1 trivial
    · refine Keep.bind (semicolonInWord_in hw h hs1 he (hl.mono le) (hp.mono le)) fun e st2 le2 hs2 he2 => ?_
      have hb2 := Block.In.mono le2 _ (Block.In.mono le _ hb)
      dsimp only
      split
      · exact Keep.ok hs2 trivial
      · obtain ⟨g1, g2, g3⟩ := he2
        dsimp only at g1 g2 g3
        split
        · exact Keep.ok hs2 trivial
        · refine Post.bind (findNonDrivespecColon_in (Block.span_in g1)) fun x hx => ?_
          split
          · refine Post.bind (Span.toNewBlock_in (hx.2 _ rfl)) fun aft haft => ?_
            refine Post.bind (pushWord_in (hw.closed _) hb2 hx.1) fun pc hpc => ?_
            refine Keep.ok hs2 ⟨hpc, ?_, g2, g3⟩
            rintro _ ⟨⟩; exact haft
          · refine Post.bind (nextMword_in g2) fun y hy => ?_
            split
            · exact Keep.ok hs2 trivial
            · split
              · exact Keep.ok hs2 ⟨hb2, by simp [OptIn], hy.1, g3⟩
              · refine Post.bind (pushWord_in (hw.closed _) hb2 hx.1) fun pc hpc => ?_
                exact ih _ _ _ _ _ _ hs2 hy.1 hy.2 hpc g3

theorem finishRule_in {rest : Span} {b c : Block} {l : Span} {p : Option Block} {st : St} (hs : st.In w)
    (hrest : rest.In (w st.names)) (hb : Block.In (w st.names) b) (hc : Block.In (w st.names) c)
    (hl : l.In (w st.names)) (hp : OptIn (w st.names) p) :
    Keep w st (IResIn TargetAction.In) (finishRule r rest b c l p st) := by
  unfold finishRule
  refine Post.bind (parseFileSeq_in _ (Block.span_in hb)) fun targets ht => ?_
  refine Post.bind (Block.pushAll_in Block.empty_in (Block.span_in hc)) fun blk hblk => ?_
  refine Post.bind (Block.pushAll_in hblk hl) fun blk hblk => ?_
  dsimp only
  refine Post.bind (Q := Block.In (w st.names)) ?_ fun blk2 hblk2 => ?_
  · split
    · exact Block.pushAll_in (Block.push_in hblk (CRef.semicolon_in (hw.closed _))) (Block.span_in (hp _ rfl))
    · exact Post.ok hblk
  refine Post.bind (Q := fun x : Span × Bool × Nat => Span.In (w st.names) x.1) ?_ fun x hx => ?_
  · refine Post.bind (Nom.tag_in (Block.span_in hblk2) _) fun y hy => ?_
    split
    · exact Post.bind_any fun n => Post.ok hy.1
    · exact Post.ok (Block.span_in hblk2)
  obtain ⟨slice, dc, len⟩ := x
  dsimp only at hx ⊢
  refine Keep.bind (parseVariableLine_in hw h hs hx) fun var st1 le hs1 hvar => ?_
  have hx1 := hx.mono le
  have ht1 : ∀ b ∈ targets, Block.In (w st1.names) b := fun b hb => (ht b hb).mono le
  dsimp only
  split
  · exact Keep.ok hs1 ⟨hrest.mono le, trivial⟩
  · refine Post.bind (Q := fun o : Option Span => ∀ s, o = some s → Span.In (w st1.names) s) ?_ fun ps hps => ?_
    · split
      · refine Post.bind (Span.sliceFrom_in hx1 _) fun s hs => Post.ok ?_
        rintro _ ⟨⟩; exact hs
      · exact Post.ok (by simp)
    refine Keep.bind (expandSegment_in hw h hs1 (Span.sliceTo_in hx1 _)) fun e st2 le2 hs2 he => ?_
    dsimp only
    split
    · exact Keep.ok hs2 trivial
    · refine Post.bind (Q := fun x : Block × Option Block => Block.In (w st2.names) x.1 ∧ OptIn (w st2.names) x.2) ?_
        fun x hx => ?_
      · split
        · refine Post.bind (takeUntilUnquote_in (Block.span_in he) _) fun y hy => ?_
          split
          · refine Post.bind (Span.toNewBlock_in (hy.2 _ rfl).2) fun z hz => Post.ok ⟨hy.1, ?_⟩
            rintro _ ⟨⟩; exact hz
          · exact Post.ok ⟨hy.1, by simp [OptIn]⟩
        · refine Post.bind (Span.toNewBlock_in ((hps _ rfl).mono le2)) fun z hz => Post.ok ⟨he, ?_⟩
          rintro _ ⟨⟩; exact hz
      obtain ⟨pre, post⟩ := x
      obtain ⟨hpre, hpost⟩ := hx
      dsimp only at hpre hpost ⊢
      refine Post.bind (Q := IRes.In (w st2.names) fun o : Option Ast => ∀ a, o = some a → Ast.In (w st2.names) a) ?_
        fun cmd hcmd => ?_
      · split
        · refine PIn.mapP (parseAst_in (hw.closed _) (Block.span_in (hpost _ rfl))) fun a ha => ?_
          rintro _ ⟨⟩; exact ha
        · exact PIn.done Span.empty_in (by simp)
      split
      · exact Keep.ok hs2 trivial
      · refine Post.bind_any fun cs => ?_
        split
        · exact Post.panic _
        · refine Post.bind (parseFileSeq_in _ (Block.span_in hpre)) fun deps hdeps => ?_
          exact Keep.ok hs2 ⟨(hrest.mono le).mono le2, fun b hb => (ht1 b hb).mono le2, hdeps, hcmd.2⟩

theorem parseTargetLine_in {i : Span} {st : St} (hs : st.In w) (hi : i.In (w st.names)) :
    Keep w st (IResIn TargetAction.In) (parseTargetLine r i st) := by
  unfold parseTargetLine
  refine Post.bind (makefileLine_in (hw.closed _) hi _ _) fun x hx => ?_
  split
  · exact Keep.ok hs trivial
  · obtain ⟨hrest, hline⟩ := hx
    refine Post.bind (Q := fun x : Block × Option Block => Block.In (w st.names) x.1 ∧ OptIn (w st.names) x.2) ?_
      fun x hx => ?_
    · refine Post.bind (takeUntilUnquote_in (Block.span_in hline) _) fun y hy => ?_
      split
      · refine Post.bind_any fun c => ?_
        split
        · exact Post.ok ⟨hy.1, by simp [OptIn]⟩
        · refine Post.bind (Span.toNewBlock_in (hy.2 _ rfl).2) fun z hz => Post.ok ⟨hy.1, ?_⟩
          rintro _ ⟨⟩; exact hz
      · exact Post.ok ⟨hy.1, by simp [OptIn]⟩
    obtain ⟨pre, post⟩ := x
    obtain ⟨hpre, hpost⟩ := hx
    dsimp only at hpre hpost ⊢
    refine Post.bind (nextMword_in (Block.span_in hpre)) fun y hy => ?_
    split
    · exact Keep.ok hs trivial
    · split
      · split
        · exact Keep.ok hs trivial
        · exact Keep.ok hs ⟨hrest, trivial⟩
      · exact Keep.ok hs ⟨hrest, trivial⟩
      · exact Keep.ok hs ⟨hrest, trivial⟩
      · refine Keep.bind (wordLoop_in hw h _ _ _ _ _ _ _ hs hy.1 hy.2 Block.empty_in hpost) fun res st1 le hs1 hres => ?_
        dsimp only
        split
        · exact Keep.ok hs1 trivial
        · exact Keep.ok hs1 ⟨hrest.mono le, trivial⟩
        · obtain ⟨k1, k2, k3, k4⟩ := hres
          split
          · refine Post.bind_any fun z => ?_
            split
            · exact Post.panic _
            · split
              · exact Keep.ok hs1 ⟨hrest.mono le, trivial⟩
              · exact Keep.ok hs1 trivial
          · refine Post.bind (runwrap_post k2) fun a ha => ?_
            exact finishRule_in hw h hs1 (hrest.mono le) k1 ha k3 k4

/-! ### Files -/

theorem readMakefile_in {name : Str} {st : St} (hs : st.In w) :
    Keep w st (fun _ _ => True) (readMakefile r (fs name) name st) := by
  unfold readMakefile
  split
  · rename_i s e
    obtain ⟨h1, h2⟩ := hw.file st.names name
    have h3 := hw.text st.names name s e
    refine Post.bind (Q := Block.In (w (st.names.internFile name).2)) ?_ fun b hb => ?_
    · exact Block.new_in (by simp) ⟨CRef.ofNode_in h3, trivial⟩
    · exact Keep.after (st' := { st with names := (st.names.internFile name).2 }) h1
        (h.processBlock b _ (hs.mono h1) hb)
  · exact Keep.ok hs trivial

theorem includeLoop_in (soft : Bool) (files : List Block) : ∀ (st : St), st.In w →
    Keep w st (fun _ _ => True) (includeLoop fs r soft files st) := by
  induction files with
  | nil => intro _ hs; exact Keep.ok hs trivial
  | cons f files ih =>
    intro st hs
    unfold includeLoop
    refine Keep.any fun name => ?_
    split
    · split
      · exact ih _ hs
      · exact Keep.ok hs trivial
    · refine Keep.bind (readMakefile_in hw h hs) fun res st1 le hs1 _ => ?_
      dsimp only
      split
      · exact ih _ hs1
      · exact Keep.ok hs1 trivial
      · exact Keep.ok hs1 trivial

theorem handleInclude_in {soft : Bool} {a : Ast} {st : St} (hs : st.In w) (ha : Ast.In (w st.names) a) :
    Keep w st (fun _ _ => True) (handleInclude fs r soft a st) := by
  unfold handleInclude
  refine Keep.bind (h.eval hs ha) fun b st le hs hb => ?_
  dsimp only
  refine Post.bind_any fun files => ?_
  exact includeLoop_in hw h _ _ _ hs

theorem handleDirective_in {d : Directive} {st : St} (hs : st.In w) (hd : d.In (w st.names)) :
    Keep w st (fun _ _ => True) (handleDirective fs r d st) := by
  cases d with
  | include_ a => exact handleInclude_in hw h hs hd
  | softInclude a => exact handleInclude_in hw h hs hd
  | _ => exact Post.panic _

/-! ### The line parser -/

/-- What a step of the line parser does. -/
def KeepL {α : Type} (w : NameCache → World) (st : St) (Q : World → α → Prop) (x : Res (α × PState × St)) : Prop :=
  Post (fun o => (w st.names).Le (w o.2.2.names) ∧ o.2.2.In w ∧ o.2.1.In (w o.2.2.names) ∧ Q (w o.2.2.names) o.1) x

omit hw h in
theorem KeepL.ok {α : Type} {Q : World → α → Prop} {st : St} {p : PState} {a : α} (hs : st.In w) (hp : p.In (w st.names))
    (ha : Q (w st.names) a) : KeepL w st Q (.ok (a, p, st)) := Post.ok ⟨World.Le.refl _, hs, hp, ha⟩

omit hw h in
/-- After a stateful step. -/
theorem KeepL.bind {α β : Type} {Q : World → α → Prop} {Q' : World → β → Prop} {st : St} {x : Res (α × St)}
    {f : α × St → Res (β × PState × St)} (h : Keep w st Q x)
    (hf : ∀ a st', (w st.names).Le (w st'.names) → st'.In w → Q (w st'.names) a → KeepL w st' Q' (f (a, st'))) :
    KeepL w st Q' (x >>= f) := by
  refine Post.bind h fun o ho => ?_
  obtain ⟨a, st'⟩ := o
  obtain ⟨h1, h2, h3⟩ := ho
  exact Post.mono (hf a st' h1 h2 h3) fun o ho => ⟨h1.trans ho.1, ho.2⟩

omit h in
theorem closeRule_in {p : PState} {st : St} (hs : st.In w) (hp : p.In (w st.names)) :
    Keep w st (fun W p => p.In W) (p.closeRule st) := by
  unfold PState.closeRule
  split
  · rename_i r hr
    intro o ho
    obtain ⟨⟨db, names⟩, h1, h2⟩ := bind_eq_ok.mp ho
    cases h2
    obtain ⟨g1, g2⟩ := fromProtorule_in hw hs (hp.rule r hr) h1
    exact ⟨g1, g2, ⟨by simp, (hp.mono g1).define⟩⟩
  · exact Keep.ok hs hp

omit h in
theorem handleVariableAction_in {p : PState} {st : St} {a : VarAction} (hs : st.In w) (hp : p.In (w st.names))
    (ha : a.In (w st.names)) : Keep w st (fun W p => p.In W) (handleVariableAction p st a) := by
  unfold handleVariableAction
  split
  · exact Post.panic _
  · refine Post.bind (Q := fun p : PState => p.In (w st.names)) ?_ fun p hp => ?_
    · split
      · refine Post.bind_any fun _ => Post.ok ⟨hp.rule, ?_⟩
        rintro _ ⟨⟩; exact ha.1
      · exact Post.ok hp
    · obtain ⟨name, mods, action⟩ := a
      obtain ⟨ha1, ha2⟩ := ha
      cases action with
      | define v => exact Post.ok ⟨World.Le.refl _, Database.insertVariable_in hs ha1 ha2, hp⟩
      | append v => exact Post.ok ⟨World.Le.refl _, Database.append_in (hw.closed _) hs ha1 (Ast.In.locOk ha2) ha2, hp⟩

omit h in
theorem handleDefineLine_in {p : PState} {st : St} {l : DefineLine} (hs : st.In w) (hp : p.In (w st.names))
    (hl : Ast.In (w st.names) l.content ∧ (w st.names).Loc l.location) :
    Keep w st (fun W p => p.In W) (handleDefineLine p st l) := by
  unfold handleDefineLine
  refine Post.bind (runwrap_post hp.define) fun d hd => ?_
  have app : ∀ n : Nat, Keep w st (fun W p => p.In W)
      (.ok ({ p with currentDefine := some { d with nesting := n } },
       { st with db := st.db.appendToVariable d.var l.location ⟨l.content, .recursive, .file⟩ false })) := by
    intro n
    refine Post.ok ⟨World.Le.refl _, Database.append_in (hw.closed _) hs hd hl.2 hl.1, hp.rule, ?_⟩
    rintro _ ⟨⟩; exact hd
  dsimp only
  split
  · exact app _
  · exact app _
  · refine Post.bind_any fun n => ?_
    split
    · exact Keep.ok hs ⟨hp.rule, by simp⟩
    · exact app _

omit hw h in
theorem updateIgnoring_in {W : World} {p : PState} (hp : p.In W) : p.updateIgnoring.In W := ⟨hp.rule, hp.define⟩

omit hw in
theorem handleIfeq_in {p : PState} {st : St} {a b : Ast} {inv : Bool} (hs : st.In w) (hp : p.In (w st.names))
    (ha : Ast.In (w st.names) a) (hb : Ast.In (w st.names) b) : KeepL w st (fun _ _ => True) (handleIfeq r p st a b inv) := by
  unfold handleIfeq
  refine KeepL.bind (h.eval hs ha) fun x st1 le1 hs1 hx => ?_
  dsimp only
  refine KeepL.bind (h.eval hs1 (hb.mono le1)) fun y st2 le2 hs2 hy => ?_
  dsimp only
  refine Post.bind_any fun s => ?_
  refine Post.bind_any fun t => ?_
  exact KeepL.ok (Q := fun _ _ => True) hs2 ⟨((hp.mono le1).mono le2).rule, ((hp.mono le1).mono le2).define⟩ trivial

omit hw in
theorem handleConditional_in {p : PState} {st : St} {c : Conditional} (hs : st.In w) (hp : p.In (w st.names))
    (hc : c.In (w st.names)) : KeepL w st (fun _ _ => True) (handleConditional r p st c) := by
  unfold handleConditional
  split
  · exact handleIfeq_in h hs hp hc.1 hc.2
  · exact handleIfeq_in h hs hp hc.1 hc.2
  · split
    · exact KeepL.ok hs hp trivial
    · split
      · exact KeepL.ok hs hp trivial
      · exact KeepL.ok hs ⟨hp.rule, hp.define⟩ trivial
  · exact Post.panic _
  · split
    · exact KeepL.ok hs hp trivial
    · exact KeepL.ok hs ⟨hp.rule, hp.define⟩ trivial
  · exact Post.panic _
  · exact Post.panic _

omit hw h in
theorem handleTargetAction_in {W : World} {p : PState} {a : TargetAction} (hp : p.In W) (ha : a.In W) :
    Post (fun p => p.In W) (handleTargetAction p a) := by
  cases a with
  | noAction => exact Post.ok hp
  | targetVariable => exact Post.panic _
  | newRule targets deps dc command =>
    obtain ⟨h1, h2, h3⟩ := ha
    unfold handleTargetAction
    dsimp only
    cases command with
    | none =>
      refine Post.ok ⟨?_, hp.define⟩
      rintro _ ⟨⟩; exact ⟨h1, h2, by simp⟩
    | some c =>
      refine Post.ok ⟨?_, hp.define⟩
      rintro _ ⟨⟩
      refine ⟨h1, h2, ?_⟩
      simpa using h3 c rfl

omit hw h in
theorem pushCommandLine_in {W : World} {p : PState} {a : Ast} (hp : p.In W) (ha : Ast.In W a) :
    Post (fun p => p.In W) (p.pushCommandLine a) := by
  unfold PState.pushCommandLine
  refine Post.bind (runwrap_post hp.rule) fun r hr => Post.ok ⟨?_, hp.define⟩
  rintro _ ⟨⟩
  refine ⟨hr.targets, hr.deps, fun b hb => ?_⟩
  rcases List.mem_append.mp hb with hb | hb
  · exact hr.recipe b hb
  · rw [List.mem_singleton.mp hb]; exact ha

/-- What is left of the input after a line. -/
abbrev LineIn (W : World) (x : IRes Unit) : Prop := IRes.In W (fun _ => True) x

omit hw h in
theorem lineResult_in {i : Span} {st : St} {x : Handled} (hi : i.In (w st.names))
    (hx : (w st.names).Le (w x.2.2.names) ∧ x.2.2.In w ∧ x.2.1.In (w x.2.2.names)) :
    KeepL w st LineIn (.ok (lineResult i x)) := by
  obtain ⟨e, p, st'⟩ := x
  cases e with
  | ok => exact Post.ok ⟨hx.1, hx.2.1, hx.2.2, hi.mono hx.1, trivial⟩
  | error => exact Post.ok ⟨hx.1, hx.2.1, hx.2.2, trivial⟩

theorem parseStatement_in {p : PState} {st : St} {i : Span} {line : Block} (hs : st.In w) (hp : p.In (w st.names))
    (hi : i.In (w st.names)) (hl : Block.In (w st.names) line) :
    KeepL w st LineIn (parseStatement fs r p st i line) := by
  unfold parseStatement
  refine KeepL.bind (parseVariableLine_in hw h hs (Block.span_in hl)) fun var st1 le1 hs1 hvar => ?_
  have hp1 := hp.mono le1
  have hi1 := hi.mono le1
  have hl1 := Block.In.mono le1 _ hl
  dsimp only
  split
  · exact KeepL.ok hs1 hp1 trivial
  · refine KeepL.bind (closeRule_in hw hs1 hp1) fun p2 st2 le2 hs2 hp2 => ?_
    dsimp only
    refine KeepL.bind (handleVariableAction_in hw hs2 hp2 (hvar.2.mono le2)) fun p3 st3 le3 hs3 hp3 => ?_
    exact KeepL.ok hs3 hp3 ⟨(hi1.mono le2).mono le3, trivial⟩
  · refine Post.bind (parseDirectiveLine_in (hw.closed _) (Block.span_in hl1)) fun d hd => ?_
    split
    · exact KeepL.ok hs1 hp1 trivial
    · refine KeepL.bind (closeRule_in hw hs1 hp1) fun p2 st2 le2 hs2 hp2 => ?_
      dsimp only
      refine KeepL.bind (handleDirective_in hw h hs2 (hd.2.mono le2)) fun res st3 le3 hs3 _ => ?_
      exact lineResult_in ((hi1.mono le2).mono le3) ⟨World.Le.refl _, hs3, hp2.mono le3⟩
    · refine Post.bind_any fun c => ?_
      split
      · exact KeepL.ok hs1 hp1 trivial
      · refine KeepL.bind (parseTargetLine_in hw h hs1 (Block.span_in hl1)) fun t st2 le2 hs2 ht => ?_
        have hp2 := hp1.mono le2
        have hi2 := hi1.mono le2
        dsimp only
        split
        · exact KeepL.ok hs2 hp2 trivial
        · refine KeepL.bind (closeRule_in hw hs2 hp2) fun p3 st3 le3 hs3 hp3 => ?_
          dsimp only
          refine Post.bind (handleTargetAction_in hp3 (ht.2.mono le3)) fun p4 hp4 => ?_
          exact KeepL.ok hs3 hp4 ⟨hi2.mono le3, trivial⟩
        · exact KeepL.ok hs2 hp2 ⟨hi2, trivial⟩

theorem parseCollapsed_in {p : PState} {st : St} {i : Span} (hs : st.In w) (hp : p.In (w st.names))
    (hi : i.In (w st.names)) : KeepL w st LineIn (parseCollapsed fs r p st i) := by
  unfold parseCollapsed
  refine Post.bind (makefileLine_in (hw.closed _) hi _ _) fun l hl => ?_
  split
  · exact KeepL.ok hs hp trivial
  · split
    · exact KeepL.ok hs hp ⟨hl.1, trivial⟩
    · refine Post.bind (parseConditionalLine_in (hw.closed _) (Block.span_in hl.2)) fun c hc => ?_
      split
      · exact KeepL.ok hs hp trivial
      · refine Post.bind (handleConditional_in h hs hp hc.2) fun o ho => ?_
        exact lineResult_in hl.1 ⟨ho.1, ho.2.1, ho.2.2.1⟩
      · split
        · exact KeepL.ok hs hp ⟨hl.1, trivial⟩
        · exact parseStatement_in hw h hs hp hl.1 hl.2

theorem parseLine_in {p : PState} {st : St} {i : Span} (hs : st.In w) (hp : p.In (w st.names))
    (hi : i.In (w st.names)) : KeepL w st LineIn (parseLine fs r p st i) := by
  unfold parseLine
  refine Post.bind (parseCommentFollowingWhitespace_in hi) fun c hc => ?_
  split
  · exact KeepL.ok hs hp ⟨hc.1, trivial⟩
  · exact KeepL.ok hs hp trivial
  · split
    · refine Post.bind (recipeLine_in (hw.closed _) _ hi) fun l hl => ?_
      split
      · exact Post.bind (pushCommandLine_in hp hl.2) fun p hp => KeepL.ok hs hp ⟨hl.1, trivial⟩
      · exact KeepL.ok hs hp trivial
      · exact parseCollapsed_in hw h hs hp hi
    · split
      · refine Post.bind (parseDefineLine_in (hw.closed _) hi) fun l hl => ?_
        split
        · refine KeepL.bind (handleDefineLine_in hw hs hp hl.2) fun p1 st1 le1 hs1 hp1 => ?_
          exact KeepL.ok hs1 hp1 ⟨hl.1.mono le1, trivial⟩
        · exact KeepL.ok hs hp trivial
        · exact Post.panic _
      · exact parseCollapsed_in hw h hs hp hi

theorem processLoop_in (n : Nat) : ∀ (i : Span) (p : PState) (st : St), st.In w → p.In (w st.names) →
    i.In (w st.names) → Keep w st (fun _ _ => True) (processLoop fs r n i p st) := by
  induction n with
  | zero => intros; exact Post.fuel
  | succ n ih =>
    intro i p st hs hp hi
    unfold processLoop
    split
    · refine Post.bind (parseLine_in hw h hs hp hi) ?_
      rintro ⟨res, p, st1⟩ ⟨le, hs1, hp1, hres⟩
      dsimp only at *
      split
      · exact Keep.after le (ih _ _ _ hs1 hp1 hres.1)
      · exact Post.panic _
    · exact Keep.ok hs trivial

theorem processStep_in {b : Block} {st : St} (hs : st.In w) (hb : Block.In (w st.names) b) :
    Keep w st (fun _ _ => True) (processStep fs r b st) := by
  unfold processStep
  refine Post.bind (PIn.orElse (Nom.char_in (Block.span_in hb) _) (PIn.done (Block.span_in hb) trivial)) fun x hx => ?_
  split
  · exact processLoop_in hw h _ _ _ _ hs ⟨by simp [PState.new], by simp [PState.new]⟩ hx.1
  · exact Post.panic _

end eval

section run
variable {fs : Fs} {w : NameCache → World} (hw : Worlds fs w)
include hw

theorem recF_sound (n : Nat) : Rec.Sound w (recF fs n) := by
  induction n with
  | zero => exact ⟨fun _ _ _ _ => Post.fuel, fun _ _ _ _ => Post.fuel⟩
  | succ n ih => exact ⟨fun a st hs ha => evalStep_in hw ih hs ha, fun b st hs hb => processStep_in hw ih hs hb⟩

/-- Every state that is reached is in the world of its names. -/
theorem reached_in {st : St} (h : Reachable fs st) : st.In w := by
  induction h with
  | init => exact Database.empty_in
  | read _ e ih => exact (readMakefile_in hw (recF_sound hw _) ih _ e).2.1
  | expand hr e ih =>
    unfold expandF at e
    split at e
    · cases e; exact ih
    · rename_i p hp
      obtain ⟨⟨b, st1⟩, e1, e⟩ := bind_eq_ok.mp e
      obtain ⟨s, e2, e⟩ := bind_eq_ok.mp e
      cases e
      exact ((recF_sound hw _).eval ih (ih.variables _ p hp).2 _ e1).2.1

/-- And so is what a variable evaluates to. -/
theorem evalF_in {st : St} (h : Reachable fs st) {n : Nat} {v : VariableName} {p : VarParams} {b : Block} {st' : St}
    (hp : st.db.getVariable v = some p) (e : evalF fs n p.value st = .ok (b, st')) :
    Block.In (w st'.names) b :=
  ((recF_sound hw n).eval (reached_in hw h) ((reached_in hw h).variables v p hp).2 _ e).2.2

end run

end Hastur
