import Verif.Proofs.SubstComputed
import Verif.Proofs.Demo
import Verif.Spec.MayUse
/-
C82: substitution references whose text is put together from several pieces, as in `$($(n):.c=.o)`.
-/
namespace Hastur

open Res

/-- The full claim: if the text of a reference expands to `n:k=r` (with no further colon or equals sign where it would be
mistaken for these) and the value of the variable `n` has an expansion, or `n` is undefined, the variables consulted are
those of the text, `n`, and those of its value. -/
def C82_full : Prop :=
  ∀ (fs : Fs) (l l1 l2 : Location) (a : Ast) (st : St) (n k r u : List LChar) (ns us : List Str),
    a.WF → st.WF → Expands st.env a.flat (n ++ (':', l1) :: (k ++ ('=', l2) :: r)) ns →
    ':' ∉ textOf k → '=' ∉ textOf k → ':' ∉ textOf r → '=' ∉ textOf r →
    ((st.env (textOf n) = none ∧ u = [] ∧ us = []) ∨ ∃ body, st.env (textOf n) = some body ∧ Expands st.env body u us) →
    ∃ N, ∀ m, N ≤ m → ∃ b, evalF fs m (.varRef l a) st = .ok (b, st.interned (ns ++ textOf n :: us)) ∧
      ∀ v, v ∈ b.sens ↔ ∃ s ∈ ns ++ textOf n :: us, (st.interned (ns ++ textOf n :: us)).names.variableName s = some v

/-- What the engine does, whatever pieces the text comes in.  The block `b` is the value of the text of the reference,
which reads `n:k=r`.  The variable looked up and the key are `Block.partTo`: they are `n` and `k` only if no new piece
begins between their beginning and what follows the separator, or one begins exactly there.  The block `vb` is the value of the variable
looked up, and its words are treated as in `C38_pieces_exact`. -/
theorem C82_exact (fs : Fs) (l l1 l2 : Location) (a : Ast) (st st1 : St) (n k r : List LChar) (ns us : List Str)
    (b vb : Block) (N : Nat) (y : Str) (key : List LChar)
    (ha : a.WF) (hst : st.WF) (hn : Expands st.env a.flat (n ++ (':', l1) :: (k ++ ('=', l2) :: r)) ns)
    (hk : ':' ∉ textOf k) (hr : ':' ∉ textOf r) (hr' : '=' ∉ textOf r) (h0 : r ≠ [] ∨ '=' ∉ textOf k)
    (hb : evalF fs N a st = .ok (b, st1))
    (hy : y = textOf (b.partTo 0 n.length)) (hkey : key = b.partTo (n.length + 1) (n.length + 1 + k.length))
    (hu : (st.env y = none ∧ vb = Block.empty ∧ us = []) ∨
      ∃ p u st2, (st.interned (ns ++ [y])).lookup y = some p ∧ Expands st.env p.value.flat u us ∧
        evalF fs N p.value (st.interned (ns ++ [y])) = .ok (vb, st2)) :
    ∃ outs, List.Forall₂ (fun w out => (substRule key r).DoneAt vb.pieceStart w.1 w.2 out)
        (substWordsAt (Block.ltext vb)) outs ∧
      ∃ M, ∀ m, M ≤ m → ∃ o, evalF fs m (.varRef l a) st = .ok (o, st.interned (ns ++ y :: us)) ∧
        Block.ltext o = joinSpaces outs ∧
        ∀ v, v ∈ o.sens ↔ ∃ s ∈ ns ++ y :: us, (st.interned (ns ++ y :: us)).names.variableName s = some v := by
  obtain ⟨N1, hN1⟩ := evals_of_expands fs ha hst hn
  have same : ∀ {a : Ast} {st st1 : St} {t : List LChar} {vs : List Str} {N N1 : Nat} {b : Block},
      Evals fs st N1 a t vs → evalF fs N a st = .ok (b, st1) →
      (st1 = st.interned vs ∧ Block.ltext b = t ∧ SensOf b.sens (st.interned vs).names vs ∧ Block.WF b ∧ b.Solid) := by
    intro a st st1 t vs N N1 b h1 h2
    obtain ⟨b', g1, g2, g3, g4, g5⟩ := h1.eval
    have e1 := evalF_mono (Nat.le_max_left N N1) h2
    have e2 : evalF fs (max N N1) a st = _ := evalF_mono (Nat.le_max_right N N1) g1
    rw [e1] at e2
    cases e2
    exact ⟨rfl, g2, g3, g4, g5⟩
  obtain ⟨rfl, b2, b3, b4, b5⟩ := same hN1 hb
  have hw1 := hst.interned ns
  have hw2 := hw1.interned [y]
  obtain ⟨hv, henv⟩ := hw1.intern y
  rw [hst.env_interned ns] at henv
  have happ : st.interned (ns ++ [y]) = (st.interned ns).interned [y] := St.interned_append ..
  obtain ⟨outs, o1, o2⟩ := evals_subref_pieces (l := l) (vb := vb) (us := us) hst hb b2 b3 b4 b5 hk hr hr' h0 hy hkey <| by
    refine hu.imp id fun ⟨p, u, st2, hl, hx, hp⟩ => ?_
    rw [happ] at hl hp
    rw [St.lookup, hv] at hl
    have hl : st.db.getVariable (((st.interned ns).names.internVar y).1) = some p := hl
    have hne : st.env y ≠ none := by
      rw [henv]
      simp only [St.interned_db, hl]
      simp
    refine ⟨fun p' hp' => ?_, hne⟩
    rw [hl] at hp'
    cases hp'
    obtain ⟨M, hM⟩ := evals_of_expands fs (st := (st.interned ns).interned [y]) (hst.values _ _ hl) hw2
      (t := u) (vs := us) (by rw [hw1.env_interned, hst.env_interned]; exact hx)
    obtain ⟨rfl, c2, c3, c4, c5⟩ := same hM hp
    exact ⟨hp, c3, c4, c5⟩
  refine ⟨outs, o1, N + 1, fun m hm => ?_⟩
  obtain ⟨b, b1, b2, b3, _⟩ := (o2.mono hm).eval
  exact ⟨b, b1, b2, b3⟩

/-- If the text after the separator begins in the piece in which the part begins, or is at the beginning of a piece, the
part is the one up to the separator. -/
theorem C82_part (b : Block) (p e : Nat) (h : b.pieceStart (e + 1) ≤ p ∨ b.pieceStart (e + 1) = e + 1) :
    b.partTo p e = ((Block.ltext b).take e).drop p := by
  unfold Block.partTo
  split
  · rfl
  · rename_i hp
    rw [h.resolve_left hp, Nat.add_sub_cancel]

/-- C82 for text in which the character after the colon is in the first piece or is the first one of its piece, and
likewise for the character after the equals sign: the variable looked up is `n` and the key is `k`.  Not covered is text
in which the character after the colon or the equals sign is inside a later piece, for which the claim is false. -/
theorem C82_named_partial (fs : Fs) (l l1 l2 : Location) (a : Ast) (st st1 : St) (n k r : List LChar) (ns us : List Str)
    (b vb : Block) (N : Nat)
    (ha : a.WF) (hst : st.WF) (hn : Expands st.env a.flat (n ++ (':', l1) :: (k ++ ('=', l2) :: r)) ns)
    (hk : ':' ∉ textOf k) (hr : ':' ∉ textOf r) (hr' : '=' ∉ textOf r) (h0 : r ≠ [] ∨ '=' ∉ textOf k)
    (hb : evalF fs N a st = .ok (b, st1))
    (h1 : b.pieceStart (n.length + 1) = 0 ∨ b.pieceStart (n.length + 1) = n.length + 1)
    (h2 : b.pieceStart (n.length + 1 + k.length + 1) ≤ n.length + 1 ∨
      b.pieceStart (n.length + 1 + k.length + 1) = n.length + 1 + k.length + 1)
    (hu : (st.env (textOf n) = none ∧ vb = Block.empty ∧ us = []) ∨
      ∃ p u st2, (st.interned (ns ++ [textOf n])).lookup (textOf n) = some p ∧ Expands st.env p.value.flat u us ∧
        evalF fs N p.value (st.interned (ns ++ [textOf n])) = .ok (vb, st2)) :
    ∃ outs, List.Forall₂ (fun w out => (substRule k r).DoneAt vb.pieceStart w.1 w.2 out)
        (substWordsAt (Block.ltext vb)) outs ∧
      ∃ M, ∀ m, M ≤ m → ∃ o, evalF fs m (.varRef l a) st = .ok (o, st.interned (ns ++ textOf n :: us)) ∧
        Block.ltext o = joinSpaces outs ∧
        ∀ v, v ∈ o.sens ↔ ∃ s ∈ ns ++ textOf n :: us,
          (st.interned (ns ++ textOf n :: us)).names.variableName s = some v := by
  obtain ⟨N1, hN1⟩ := evals_of_expands fs ha hst hn
  obtain ⟨b', g1, g2, _⟩ := hN1.eval
  have e1 := evalF_mono (Nat.le_max_left N N1) hb
  have e2 : evalF fs (max N N1) a st = _ := evalF_mono (Nat.le_max_right N N1) g1
  rw [e1] at e2
  cases e2
  refine C82_exact fs l l1 l2 a st _ n k r ns us b vb N _ _ ha hst hn hk hr hr' h0 hb ?_ ?_ hu
  · rw [C82_part b 0 n.length (h1.imp (fun h => by omega) id), g2]
    simp
  · rw [C82_part b _ _ h2, g2, List.take_append, List.take_of_length_le (by omega),
      show n.length + 1 + k.length - n.length = k.length + 1 by omega]
    simp

private def txt (s : String) : Ast := .constant .synthetic ⟨.synthetic, s.toList⟩
private def ref (s : String) : Ast := .varRef .synthetic (txt s)
private def cat (as : List Ast) : Ast := .concat .synthetic as
private def noFs : Fs := fun _ => .missing
private theorem not_subst {s : Str} (h : ':' ∉ s) : ¬ IsSubst s := by
  rintro ⟨a, b, c, rfl, _⟩; simp at h

/-- `$(n):c=d`, the text of `$($(n):c=d)`. -/
private def computed : Ast := cat [ref "n", txt ":c=d"]

/-- `n = xy`, `xy = a.c`. -/
private def two : St := (St.init.define ['n'] (txt "xy")).define ['x', 'y'] (txt "a.c")

/-- `n = xy`, `xy = $($(n):c=d)`. -/
private def loop : St := (St.init.define ['n'] (txt "xy")).define ['x', 'y'] (.varRef .synthetic computed)

private theorem computed_wf : computed.WF :=
  ⟨(by show AsciiS _; unfold AsciiS; decide), (by show AsciiS _; unfold AsciiS; decide), trivial⟩

private theorem two_spec (v : Ast) (hv : v.WF) : ((St.init.define ['n'] (txt "xy")).define ['x', 'y'] v).WF ∧
    ((St.init.define ['n'] (txt "xy")).define ['x', 'y'] v).env ['n'] = some (txt "xy").flat ∧
    ((St.init.define ['n'] (txt "xy")).define ['x', 'y'] v).env ['x', 'y'] = some v.flat ∧
    Expands ((St.init.define ['n'] (txt "xy")).define ['x', 'y'] v).env computed.flat
      (locate .synthetic ['x', 'y'] ++ (':', .synthetic) :: (locate .synthetic ['c'] ++ ('=', .synthetic) ::
        locate .synthetic ['d'])) [['n']] := by
  obtain ⟨h1, e1⟩ := St.init_wf.define (s := ['n']) (a := txt "xy") (f := .recursive) (by show AsciiS _; unfold AsciiS; decide)
  obtain ⟨h2, e2⟩ := h1.define (s := ['x', 'y']) (a := v) (f := .recursive) hv
  have hn : ((St.init.define ['n'] (txt "xy")).define ['x', 'y'] v).env ['n'] = some (txt "xy").flat := by
    rw [e2, if_neg (by decide), e1, if_pos rfl]
  have hy : ((St.init.define ['n'] (txt "xy")).define ['x', 'y'] v).env ['x', 'y'] = some v.flat := by
    rw [e2, if_pos rfl]
  have tx : ∀ (env : Env) (s : Str), Expands env (Expr.text (locate .synthetic s)) (locate .synthetic s) [] :=
    fun env s => Expands.text _ _
  refine ⟨h2, hn, hy, ?_⟩
  have hr : Expands ((St.init.define ['n'] (txt "xy")).define ['x', 'y'] v).env (ref "n").flat
      (locate .synthetic ['x', 'y'] ++ []) [['n']] :=
    .defined (tx _ ['n']) (not_subst (by decide)) hn (tx _ ['x', 'y']) .nil
  exact hr.append ((tx _ ":c=d".toList).append .nil)

/-- With `n = xy` the reference `$($(n):c=d)` is about the variable `x`, although its text is `xy:c=d`. -/
theorem C82_refuted : ¬ C82_full := by
  intro h
  obtain ⟨hw, hn, hy, hx⟩ := two_spec (txt "a.c") (by show AsciiS _; unfold AsciiS; decide)
  obtain ⟨N, hN⟩ := h noFs .synthetic .synthetic .synthetic computed two (locate .synthetic ['x', 'y'])
    (locate .synthetic ['c']) (locate .synthetic ['d']) (locate .synthetic "a.c".toList) [['n']] [] computed_wf hw hx
    (by decide) (by decide) (by decide) (by decide) (.inr ⟨_, hy, Expands.text _ _⟩)
  obtain ⟨b, h1, _⟩ := hN (max N 9) (Nat.le_max_left ..)
  have e : (evalF noFs 9 (.varRef .synthetic computed) two >>= fun x => .ok x.2.names.vars.strings) =
      .ok [['n'], ['x', 'y'], ['x']] := by decide +kernel
  obtain ⟨z, hz, e⟩ := bind_eq_ok.mp e
  have h2 := evalF_mono (Nat.le_max_right N 9) hz
  rw [h1] at h2
  cases h2
  have e : (two.interned ([['n']] ++ [textOf (locate .synthetic ['x', 'y'])])).names.vars.strings =
      [['n'], ['x', 'y'], ['x']] := Res.ok.inj e
  revert e
  decide +kernel

/-- The theorem on it: the engine looks up `x`. -/
example : ∃ M, ∀ m, M ≤ m → ∃ o, evalF noFs m (.varRef .synthetic computed) two =
    .ok (o, two.interned [['n'], ['x']]) ∧ Block.ltext o = [] := by
  obtain ⟨hw, hn, hy, hx⟩ := two_spec (txt "a.c") (by show AsciiS _; unfold AsciiS; decide)
  have e : (evalF noFs 9 computed two >>= fun x => .ok (textOf (x.1.partTo 0 2))) = .ok ['x'] := by decide +kernel
  obtain ⟨⟨b, st1⟩, hb, e⟩ := bind_eq_ok.mp e
  have hu : two.env ['x'] = none := by decide +kernel
  obtain ⟨outs, o1, M, hM⟩ := C82_exact noFs .synthetic .synthetic .synthetic computed two st1 (locate .synthetic ['x', 'y'])
    (locate .synthetic ['c']) (locate .synthetic ['d']) [['n']] [] b Block.empty 9 ['x'] _ computed_wf hw hx
    (by decide) (by decide) (by decide) (.inl (by decide)) hb (Res.ok.inj e).symm rfl (.inl ⟨hu, rfl, rfl⟩)
  have hs : substWordsAt (Block.ltext Block.empty) = [] := by decide
  rw [hs] at o1
  cases o1
  exact ⟨M, fun m hm => by obtain ⟨o, h1, h2, _⟩ := hM m hm; exact ⟨o, h1, h2⟩⟩

/-- `xy:.c=$(n)`, in which what follows the equals sign is a piece of its own. -/
private def whole : Ast := cat [txt "xy:.c=", ref "n"]

/-- The theorem on `$(xy:.c=$(n))`. -/
example : ∃ M, ∀ m, M ≤ m → ∃ o, evalF noFs m (.varRef .synthetic whole) two =
    .ok (o, two.interned [['n'], ['x', 'y']]) ∧ o.text = "axy".toList := by
  obtain ⟨hw, hn, hy, _⟩ := two_spec (txt "a.c") (by show AsciiS _; unfold AsciiS; decide)
  have tx : ∀ (env : Env) (s : Str), Expands env (Expr.text (locate .synthetic s)) (locate .synthetic s) [] :=
    fun env s => Expands.text _ _
  have hx : Expands two.env whole.flat (locate .synthetic ['x', 'y'] ++ (':', .synthetic) :: (locate .synthetic ".c".toList ++
      ('=', .synthetic) :: locate .synthetic ['x', 'y'])) [['n']] := by
    have hr : Expands two.env (ref "n").flat (locate .synthetic ['x', 'y'] ++ []) [['n']] :=
      .defined (tx _ ['n']) (not_subst (by decide)) hn (tx _ ['x', 'y']) .nil
    exact (tx _ "xy:.c=".toList).append (hr.append .nil)
  have e : (evalF noFs 9 whole two >>= fun x => .ok (x.1.pieceStart 3, x.1.pieceStart 6)) = .ok (0, 6) := by decide +kernel
  obtain ⟨⟨b, st1⟩, hb, e⟩ := bind_eq_ok.mp e
  obtain ⟨e1, e2⟩ := Prod.mk.inj (Res.ok.inj e)
  have e' : (evalF noFs 9 (txt "a.c") (two.interned [['n'], ['x', 'y']]) >>= fun x => .ok x.1.text) = .ok "a.c".toList := by
    decide +kernel
  obtain ⟨⟨vb, st2⟩, hvb, _⟩ := bind_eq_ok.mp e'
  obtain ⟨outs, _, M, hM⟩ := C82_named_partial noFs .synthetic .synthetic .synthetic whole two st1
    (locate .synthetic ['x', 'y']) (locate .synthetic ".c".toList) (locate .synthetic ['x', 'y']) [['n']] [] b vb 9
    ⟨(by show AsciiS _; unfold AsciiS; decide), (by show AsciiS _; unfold AsciiS; decide), trivial⟩ hw hx
    (by decide) (by decide) (by decide) (.inl (by decide)) hb (.inl e1) (.inr e2)
    (.inr ⟨⟨txt "a.c", .recursive, .file⟩, locate .synthetic "a.c".toList, st2, rfl, Expands.text _ _, hvb⟩)
  have t : (evalF noFs 9 (.varRef .synthetic whole) two >>= fun x => .ok x.1.text) = .ok "axy".toList := by decide +kernel
  obtain ⟨z, hz, t⟩ := bind_eq_ok.mp t
  refine ⟨max M 9, fun m hm => ?_⟩
  obtain ⟨o, h1, _⟩ := hM m (by omega)
  have h2 := evalF_mono (show 9 ≤ m by omega) hz
  rw [h1] at h2
  cases h2
  exact ⟨o, h1, Res.ok.inj t⟩

private theorem not_call_text {t : List LChar} : ¬ HasCall (Expr.text t) := by
  intro h
  cases h with
  | eval h => simp [Expr.text] at h
  | strip h => simp [Expr.text] at h
  | word h => simp [Expr.text] at h
  | words h => simp [Expr.text] at h
  | ref h => simp [Expr.text] at h

private theorem not_call_ref {l : Location} {n : List Expr} (hn : ¬ HasCall n) : ¬ HasCall [.ref l n] := by
  intro h
  cases h with
  | eval h => cases List.mem_singleton.mp h
  | strip h => cases List.mem_singleton.mp h
  | word h => cases List.mem_singleton.mp h
  | words h => cases List.mem_singleton.mp h
  | ref h h' =>
    cases List.mem_singleton.mp h
    exact hn h'

private theorem not_call_append {es fs : List Expr} (h : ¬ HasCall es) (h' : ¬ HasCall fs) : ¬ HasCall (es ++ fs) := by
  intro hh
  cases hh with
  | eval m => exact (List.mem_append.mp m).elim (fun m => h (.eval m)) fun m => h' (.eval m)
  | strip m => exact (List.mem_append.mp m).elim (fun m => h (.strip m)) fun m => h' (.strip m)
  | word m => exact (List.mem_append.mp m).elim (fun m => h (.word m)) fun m => h' (.word m)
  | words m => exact (List.mem_append.mp m).elim (fun m => h (.words m)) fun m => h' (.words m)
  | ref m mm => exact (List.mem_append.mp m).elim (fun m => h (.ref m mm)) fun m => h' (.ref m mm)

private theorem value_of_define {st : St} {s : Str} {a : Ast} {w : VariableName} {p : VarParams}
    (h : (st.define s a).db.getVariable w = some p) : p.value = a ∨ st.db.getVariable w = some p := by
  have e : (st.define s a).db.getVariable w = _ := AMap.get_insert _ _ _ _
  rw [e] at h
  split at h
  · cases h; exact .inl rfl
  · exact .inr h

/-- Cycles through substitution references with computed names need not diverge, even without function calls: with
`n = xy` and `xy = $($(n):c=d)` the value of `xy` is a reference to `xy` itself, but expanding it returns. -/
theorem C37_computed_refuted : ¬ ∀ (fs : Fs) (st : St) (x k r : Str) (l l' : Location) (name : List Expr) (t : List LChar)
    (ns : List Str), st.WF → (∀ v p, st.db.getVariable v = some p → ¬ HasCall p.value.flat) → AsciiS x → ':' ∉ x →
    st.env x = some [.ref l name] → Expands st.env name t ns → textOf t = x ++ ':' :: (k ++ '=' :: r) → ':' ∉ k →
    '=' ∉ k → ':' ∉ r → '=' ∉ r →
    ∀ n y, evalF fs n (.varRef l' (.constant l' ⟨l', x⟩)) st ≠ .ok y := by
  intro h
  obtain ⟨hw, hn, hy, hx⟩ := two_spec (.varRef .synthetic computed) computed_wf
  have e : (evalF noFs 9 (ref "xy") loop >>= fun x => .ok x.1.text) = .ok [] := by decide +kernel
  obtain ⟨z, hz, _⟩ := bind_eq_ok.mp e
  refine h noFs loop ['x', 'y'] ['c'] ['d'] .synthetic .synthetic computed.flat _ _ hw ?_ (by unfold AsciiS; decide) (by decide)
    hy hx (by decide) (by decide) (by decide) (by decide) (by decide) 9 z hz
  intro w p hp
  rcases value_of_define hp with e | hp
  · rw [e]
    exact not_call_ref (not_call_append (not_call_ref not_call_text) (not_call_append not_call_text (not_call_text (t := []))))
  · rcases value_of_define hp with e | hp
    · rw [e]
      exact not_call_text
    · cases hp

end Hastur
