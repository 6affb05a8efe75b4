import Verif.Proofs.Program
import Verif.Proofs.RuleDemo
/-
C51: calls of `$(eval ...)`.
-/
namespace Hastur

open Res

/-- Evaluating `$(eval a)` in the state `st` succeeds, given enough budget: it contributes no text, reports the variables
`sens`, and leads to the state `st'`. -/
def CallGives (fs : Fs) (l : Location) (a : Ast) (st : St) (sens : Sens) (st' : St) : Prop :=
  ∃ N, ∀ n, N ≤ n → ∃ b, evalF fs n (.eval l a) st = .ok (b, st') ∧ b.content = [] ∧ ∀ v, v ∈ b.sens ↔ v ∈ sens

private theorem eval_nil {r : Rec} {a : Ast} {st st' : St} {sens : Sens}
    (h : r.evalInternal a st = .ok ((sens, []), st')) : r.eval a st = .ok (⟨sens, []⟩, st') := by
  simp only [Rec.eval, h, ok_bind]
  rfl

private theorem wrapper {c : Block} (hc : Block.WF c) :
    ∃ w, Block.new (Sens.union [] c.sens) [CRef.ofNode (.evaluated c)] = .ok w ∧ Block.ltext w = Block.ltext c ∧
      (∀ v, v ∈ w.sens ↔ v ∈ c.sens) ∧ Block.WF w ∧ w.Solid ∧ w.content.length ≤ 1 ∧
      (c.content.length ≤ 1 → Block.Mono c → Block.Mono w) := by
  have hw : CRef.WFList [CRef.ofNode (.evaluated c)] := ⟨CRef.ofNode_wf (n := .evaluated c) hc, trivial⟩
  obtain ⟨w, h1, h2, _, h4, h5, h6, h7⟩ := Block.new_spec (sens := Sens.union [] c.sens) hw
  refine ⟨w, h1, ?_, fun v => by rw [h4, Sens.mem_union]; simp, h5, h6, Block.new_length h1, fun k1 k2 => h7 ⟨⟨k1, k2⟩, trivial⟩⟩
  rw [h2]
  simp only [CRef.ltextList, CRef.ofNode_ltext (n := .evaluated c) hc, Node.ltext, List.append_nil]

/-- C51, for every argument, state and budget: a call of `$(eval)` needs the value of its argument. -/
theorem C51_argument (fs : Fs) (n : Nat) (l : Location) (a : Ast) (st st' : St) (b : Block)
    (h : evalF fs n (.eval l a) st = .ok (b, st')) : ∃ m c st1, m < n ∧ evalF fs m a st = .ok (c, st1) := by
  cases n with
  | zero => cases h
  | succ n =>
    obtain ⟨x, h1, _⟩ := bind_eq_ok.mp h
    obtain ⟨y, h2, _⟩ := bind_eq_ok.mp h1
    exact ⟨n, y.1, y.2, Nat.lt_succ_self n, h2⟩

/-- C51, for every argument, state and budget: if the argument evaluates to a block `c`, the call of `$(eval)` succeeds
just if the processing of a block `w` with the same text succeeds, and leads to the state that this leads to.  It
contributes no content and reports the variables that the evaluation of its argument reported. -/
theorem C51_call (fs : Fs) (n : Nat) (l : Location) (a : Ast) (st st1 : St) (c : Block)
    (h : evalF fs n a st = .ok (c, st1)) (hc : Block.WF c) :
    ∃ w, Block.ltext w = Block.ltext c ∧ Block.WF w ∧ (∀ v, v ∈ w.sens ↔ v ∈ c.sens) ∧
      (∀ st', (∃ b, evalF fs (n + 1) (.eval l a) st = .ok (b, st')) ↔ processF fs n w st1 = .ok (.ok (), st')) ∧
      (∀ b st', evalF fs (n + 1) (.eval l a) st = .ok (b, st') → b.content = [] ∧ ∀ v, v ∈ b.sens ↔ v ∈ c.sens) := by
  obtain ⟨w, w1, w2, w3, w4, _⟩ := wrapper hc
  have h' : (recF fs n).eval a st = .ok (c, st1) := h
  have key : ∀ b st', evalF fs (n + 1) (.eval l a) st = .ok (b, st') →
      processF fs n w st1 = .ok (.ok (), st') ∧ b.content = [] ∧ ∀ v, v ∈ b.sens ↔ v ∈ c.sens := by
    intro b st' hb
    obtain ⟨⟨⟨s, cs⟩, st2⟩, h1, h2⟩ := bind_eq_ok.mp hb
    have h1 : evalStep (recF fs n) (.eval l a) st = _ := h1
    simp only [evalStep, h', ok_bind, w1] at h1
    obtain ⟨⟨res, st3⟩, h3, h4⟩ := bind_eq_ok.mp h1
    cases res with
    | error e => cases h4
    | ok u =>
      simp only [Res.pure_eq, Res.ok.injEq, Prod.mk.injEq] at h4
      obtain ⟨⟨rfl, rfl⟩, rfl⟩ := h4
      cases h2
      exact ⟨h3, rfl, fun v => by rw [Sens.mem_union]; simp⟩
  refine ⟨w, w2, w4, w3, fun st' => ⟨fun ⟨b, hb⟩ => (key b st' hb).1, fun hp => ?_⟩, fun b st' hb => (key b st' hb).2⟩
  refine ⟨⟨Sens.union [] c.sens, []⟩, eval_nil ?_⟩
  show evalStep (recF fs n) (.eval l a) st = _
  simp only [evalStep, h', ok_bind, w1]
  have hp : (recF fs n).processBlock w st1 = _ := hp
  rw [hp]
  rfl

/-- The argument `a=12`, made of two pieces, has a value. -/
example (fs : Fs) : ∃ c, evalF fs 3 (.concat .synthetic [.constant .synthetic ⟨.synthetic, "a=".toList⟩,
    .constant .synthetic ⟨.synthetic, "12".toList⟩]) St.init = .ok (c, St.init) ∧ Block.WF c ∧ c.text = "a=12".toList :=
  ⟨⟨[], [CRef.ofNode (.constant ⟨.synthetic, "a=".toList⟩), CRef.ofNode (.constant ⟨.synthetic, "12".toList⟩)]⟩, rfl,
    ⟨⟨by decide, by show AsciiS _; unfold AsciiS; decide⟩, ⟨by decide, by show AsciiS _; unfold AsciiS; decide⟩, trivial⟩,
    by decide⟩

/-- The full claim: if the argument has a value, and processing its text as a makefile leads to certain variables and
rules, then the call of `$(eval)` succeeds and leads to them; it contributes no text and reports the variables of the
argument. -/
def C51_full : Prop :=
  ∀ (fs : Fs) (l : Location) (a : Ast) (n : Nat) (st st1 : St) (c : Block) (m : MakeState),
    evalF fs n a st = .ok (c, st1) → Block.WF c → st1.WF → RulesKnown st1.db st1.names → isAscii st1.commandChar = true →
    '#' ∉ c.text → Makes st1.commandChar NoSwitch ⟨st1.vars, st1.ruleTable, [], none⟩ (Block.ltext c) m →
    ∃ st', CallGives fs l a st c.sens st' ∧ st'.vars = m.vars ∧ st'.ruleTable = m.rules

/-- C51 for arguments whose value is made of one piece: a text, or a reference to a variable whose value is made of one
piece.  Not covered are values of several pieces; for them the engine may abort. -/
theorem C51_makefile_partial (fs : Fs) (l : Location) (a : Ast) (n : Nat) (st st1 : St) (c : Block) (m : MakeState)
    (h : evalF fs n a st = .ok (c, st1)) (hc : Block.WF c) (h1 : c.content.length ≤ 1) (h2 : Block.Mono c) (hw : st1.WF)
    (hk : RulesKnown st1.db st1.names) (hch : isAscii st1.commandChar = true) (hcom : '#' ∉ c.text)
    (hm : Makes st1.commandChar NoSwitch ⟨st1.vars, st1.ruleTable, [], none⟩ (Block.ltext c) m) :
    ∃ st', CallGives fs l a st c.sens st' ∧ st'.vars = m.vars ∧ st'.ruleTable = m.rules := by
  obtain ⟨w, w1, w2, w3, w4, w5, w6, w7⟩ := wrapper hc
  have hat := Block.span_at w4 w5
  rw [w2] at hat
  have hR : Reflects ⟨st1.vars, st1.ruleTable, [], none⟩ PState.new st1 :=
    ⟨rfl, rfl, rfl, by simp [PState.new, AllTaken], rfl, .none, hw, hk⟩
  obtain ⟨p', st', g1, g2, _⟩ := proc_makes fs w6 (w7 h1 h2) hm hR hat
    (fun x hx e => hcom (by rw [← e]; exact List.mem_map_of_mem hx)) rfl hch
  obtain ⟨N, hN⟩ := Proc.block (by rw [w2]; exact hat) g1
  refine ⟨st', ⟨max n N + 1, fun k hk => ?_⟩, g2.vars, g2.rules⟩
  obtain ⟨k, rfl⟩ : ∃ j, k = j + 1 := ⟨k - 1, by omega⟩
  have h' : (recF fs k).eval a st = .ok (c, st1) := ((recF_le fs (by omega : n ≤ k)).eval a st).ok h
  refine ⟨⟨Sens.union [] c.sens, []⟩, eval_nil ?_, rfl, fun v => by rw [Sens.mem_union]; simp⟩
  show evalStep (recF fs k) (.eval l a) st = _
  simp only [evalStep, h', ok_bind, w1]
  have hp : (recF fs k).processBlock w st1 = _ := hN k (by omega)
  rw [hp]
  rfl

private def txt (s : String) : Ast := .constant .synthetic ⟨.synthetic, s.toList⟩
private def noFs : Fs := fun _ => .missing

private theorem init_known : RulesKnown St.init.db St.init.names :=
  ⟨⟨List.nodup_nil, List.nodup_nil⟩, fun f r h => by cases h⟩

/-- The makefile `a=12`. -/
private theorem makes_a (m : MakeState) (hb : AllTaken m.branches) (hc : m.current = none) :
    Makes '\t' NoSwitch m (locate .synthetic "a=12".toList)
      { m.close with vars := m.vars.set ['a'] .recursive (Expr.text (locate .synthetic "12".toList)) } := by
  have hl : Logical (locate .synthetic "a=12".toList) (locate .synthetic "a=12".toList) [] :=
    .mk [] [] (locate .synthetic "a=12".toList) [] [] (by simp) (by intro x hx; cases hx) (free_locate (by decide))
      (head_locate (q := fun c => ¬ (c = ' ' ∨ c = '\t')) (by simp)) (by rw [textOf_locate]; decide) (.inl ⟨rfl, rfl⟩)
  exact .cons (.assign hb (.inl hc) hl
      (assignText_locate (name := ['a']) (gap := []) (op := ['=']) (gap' := []) (value := "12".toList)
        (by unfold NameChar; decide) (by simp) .recursive (by simp) (by simp))
      (not_condLike_locate (by simp) (by unfold condWords; decide)) (reads_text (free_locate (by decide)))
      (reads_text (free_locate (by decide))) (by simp) (.recursive (denotes_locate (by decide)) .nil)) .nil

/-- The argument `a=12`, made of the two pieces `a=` and `12`: the engine aborts. -/
theorem C51_refuted : ¬ C51_full := by
  intro h
  have he : evalF noFs 3 (.concat .synthetic [txt "a=", txt "12"]) St.init =
      .ok (⟨[], [CRef.ofNode (.constant ⟨.synthetic, "a=".toList⟩), CRef.ofNode (.constant ⟨.synthetic, "12".toList⟩)]⟩, St.init) :=
    rfl
  obtain ⟨st', ⟨N, hN⟩, _⟩ := h noFs .synthetic _ 3 St.init St.init _ _ he
    ⟨⟨by decide, by show AsciiS _; unfold AsciiS; decide⟩, ⟨by decide, by show AsciiS _; unfold AsciiS; decide⟩, trivial⟩ St.init_wf init_known rfl
    (by decide) (makes_a ⟨St.init.vars, St.init.ruleTable, [], none⟩ (by intro b hb; cases hb) rfl)
  obtain ⟨b, hb, _⟩ := hN (max N 20) (by omega)
  have hp : (evalF noFs 20 (.eval .synthetic (.concat .synthetic [txt "a=", txt "12"])) St.init >>= fun _ => .ok ()) =
      .panic .assertion := by decide +kernel
  have hq : evalF noFs 20 (.eval .synthetic (.concat .synthetic [txt "a=", txt "12"])) St.init = .panic .assertion := by
    cases hx : evalF noFs 20 (.eval .synthetic (.concat .synthetic [txt "a=", txt "12"])) St.init with
    | ok x => rw [hx] at hp; cases hp
    | fuel => rw [hx] at hp; cases hp
    | panic k => rw [hx] at hp; cases hp; rfl
  have := ((recF_le noFs (by omega : 20 ≤ max N 20)).eval (.eval .synthetic (.concat .synthetic [txt "a=", txt "12"])) St.init).panic hq
  have hb : (recF noFs (max N 20)).eval _ _ = _ := hb
  rw [this] at hb
  cases hb

/-- The call `$(eval $(x))` where `x` is `a=12`: the variable `a` is defined, and `x` is reported. -/
example (fs : Fs) : ∃ st', CallGives fs .synthetic (.varRef .synthetic (txt "x")) (St.init.define ['x'] (txt "a=12")) [⟨0⟩] st' ∧
    st'.vars ['a'] = some (.recursive, Expr.text (locate .synthetic "12".toList)) ∧
    st'.vars ['x'] = some (.recursive, Expr.text (locate .synthetic "a=12".toList)) := by
  have hw : (St.init.define ['x'] (txt "a=12")).WF := 
    (St.init_wf.define (by show AsciiS "a=12".toList; unfold AsciiS; decide)).1
  have hk : RulesKnown (St.init.define ['x'] (txt "a=12")).db (St.init.define ['x'] (txt "a=12")).names :=
    ⟨⟨List.nodup_nil, by decide⟩, fun f r h => by cases h⟩
  have he : evalF fs 5 (.varRef .synthetic (txt "x")) (St.init.define ['x'] (txt "a=12")) =
      .ok (⟨[⟨0⟩], [CRef.ofNode (.varRef ⟨[], [CRef.ofNode (.constant ⟨.synthetic, ['x']⟩)]⟩
        ⟨[], [CRef.ofNode (.constant ⟨.synthetic, "a=12".toList⟩)]⟩)]⟩, St.init.define ['x'] (txt "a=12")) := rfl
  obtain ⟨st', h1, h2, h3⟩ := C51_makefile_partial fs .synthetic _ 5 _ _ _ _ he
    ⟨⟨by decide, ⟨by decide, by show AsciiS _; unfold AsciiS; decide⟩, trivial⟩, trivial⟩ (by decide) ⟨⟨by decide, trivial, trivial⟩, trivial⟩ hw hk rfl (by decide)
    (makes_a ⟨_, _, [], none⟩ (by intro b hb; cases hb) rfl)
  exact ⟨st', h1, by rw [h2]; rfl, by rw [h2]; rfl⟩

end Hastur
