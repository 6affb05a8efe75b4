import Verif.Proofs.Span
/-
Lemmas: copying, concatenating and simplifying blocks.
-/
namespace Hastur

theorem CRef.mono_iff (c : CRef) : CRef.Mono c ↔ Node.Mono c.node := by cases c; rfl
theorem Block.mono_eq (b : Block) : Block.Mono b = CRef.MonoList b.content := by cases b; rfl
theorem CRef.monoList_iff (cs : List CRef) : CRef.MonoList cs ↔ ∀ c ∈ cs, CRef.Mono c := by
  induction cs with
  | nil => simp [CRef.MonoList]
  | cons c cs ih => simp [CRef.MonoList, ih]
theorem CRef.monoList_append {a b : List CRef} : CRef.MonoList (a ++ b) ↔ CRef.MonoList a ∧ CRef.MonoList b := by
  simp only [CRef.monoList_iff, List.mem_append]
  constructor
  · intro h; exact ⟨fun c hc => h c (Or.inl hc), fun c hc => h c (Or.inr hc)⟩
  · rintro ⟨h1, h2⟩ c (hc | hc)
    · exact h1 c hc
    · exact h2 c hc
theorem CRef.monoList_drop {a : List CRef} (n : Nat) (h : CRef.MonoList a) : CRef.MonoList (a.drop n) := by
  rw [CRef.monoList_iff] at *
  exact fun c hc => h c (List.mem_of_mem_drop hc)

theorem CRef.ltext_take {c : CRef} (hw : CRef.WF c) {n : Nat} (h : c.length ≤ n) :
    (CRef.ltext c).take n = CRef.ltext c :=
  List.take_of_length_le (by rw [CRef.ltext_length c hw]; exact h)
theorem CRef.ltext_drop {c : CRef} (hw : CRef.WF c) {n : Nat} (h : c.length ≤ n) :
    (CRef.ltext c).drop n = [] :=
  List.drop_of_length_le (by rw [CRef.ltext_length c hw]; exact h)

/-- Cutting a reference. -/
theorem CRef.cut_ltext (c : CRef) (o l : Nat) (h : o + l ≤ c.length) :
    CRef.ltext (⟨c.offset + o, l, c.node⟩ : CRef) = ((CRef.ltext c).drop o).take l := by
  simp only [CRef.ltext_eq]
  rw [List.drop_take, List.drop_drop, List.take_take, Nat.min_eq_left (by omega)]

theorem CRef.cut_wf {c : CRef} (hw : CRef.WF c) (o l : Nat) (h : o + l ≤ c.length) :
    CRef.WF (⟨c.offset + o, l, c.node⟩ : CRef) := by
  rw [CRef.wf_iff] at *
  simp only
  exact ⟨by omega, hw.2⟩

/-! ### Sensitivity -/

theorem Sens.mem_insert {s : Sens} {v w : VariableName} : w ∈ Sens.insert s v ↔ w ∈ s ∨ w = v := by
  unfold Sens.insert
  split
  · rename_i h
    exact ⟨Or.inl, fun h' => h'.elim id (fun e => e ▸ h)⟩
  · simp

theorem Sens.mem_union {a b : Sens} {w : VariableName} : w ∈ Sens.union a b ↔ w ∈ a ∨ w ∈ b := by
  unfold Sens.union
  induction b generalizing a with
  | nil => simp
  | cons v b ih => simp [ih, Sens.mem_insert, or_assoc]

/-! ### Copying -/

theorem collectRefs_spec (c : CRef) (cs : List CRef) (n : Nat) (hw : CRef.WFList (c :: cs))
    (hn : n ≤ lensum (c :: cs)) :
    ∃ out, Span.collectRefs c cs n = .ok out ∧ CRef.ltextList out = (CRef.ltextList (c :: cs)).take n ∧
      CRef.WFList out ∧ lensum out = n ∧ (CRef.MonoList (c :: cs) → CRef.MonoList out) ∧
      ((∀ d ∈ c :: cs, 0 < d.length) → 0 < n → ∀ d ∈ out, 0 < d.length) := by
  induction cs generalizing c n with
  | nil =>
    simp only [lensum_cons, lensum_nil, Nat.add_zero] at hn
    simp only [Span.collectRefs]
    rw [if_neg (by omega)]
    have hc := CRef.cut_ltext c 0 n (by omega)
    have hcw := CRef.cut_wf hw.1 0 n (by omega)
    simp only [Nat.add_zero, List.drop_zero] at hc hcw
    refine ⟨_, rfl, by simp [hc], ⟨hcw, trivial⟩, by simp, ?_, ?_⟩
    · rintro ⟨hm, _⟩
      exact ⟨by rw [CRef.mono_iff] at *; exact hm, trivial⟩
    · intro _ h0 d hd
      simp at hd; subst hd; exact h0
  | cons d cs ih =>
    simp only [Span.collectRefs]
    by_cases hc : c.length < n
    · rw [if_pos hc]
      obtain ⟨out, h1, h2, h3, h4, h5, h6⟩ := ih d (n - c.length) hw.2 (by simp at hn ⊢; omega)
      rw [h1]
      refine ⟨c :: out, rfl, ?_, ⟨hw.1, h3⟩, by simp [h4]; omega, ?_, ?_⟩
      · rw [CRef.ltextList_cons, CRef.ltextList_cons c, h2, List.take_append, CRef.ltext_length c hw.1,
          CRef.ltext_take hw.1 (by omega)]
      · intro hm
        exact ⟨hm.1, h5 hm.2⟩
      · intro hp h0 e he
        rcases List.mem_cons.mp he with rfl | he
        · exact hp _ (by simp)
        · exact h6 (fun x hx => hp x (by simp [hx])) (by omega) e he
    · rw [if_neg hc]
      have hc' := CRef.cut_ltext c 0 n (by omega)
      have hcw := CRef.cut_wf hw.1 0 n (by omega)
      simp only [Nat.add_zero, List.drop_zero] at hc' hcw
      refine ⟨_, rfl, ?_, ⟨hcw, trivial⟩, by simp, ?_, ?_⟩
      · rw [CRef.ltextList_cons c, List.take_append_of_le_length (by rw [CRef.ltext_length c hw.1]; omega)]
        simp [hc']
      · rintro ⟨hm, _⟩
        exact ⟨by rw [CRef.mono_iff] at *; exact hm, trivial⟩
      · intro _ h0 e he
        simp at he; subst he; exact h0

theorem Span.coveredRefs_spec {s : Span} (h : s.Good) (h0 : s.length ≠ 0) :
    ∃ out, s.coveredRefs = .ok out ∧ CRef.ltextList out = s.ltext ∧ CRef.WFList out ∧ lensum out = s.length ∧
      (Block.Mono s.parent → CRef.MonoList out) ∧ (s.parent.Solid → ∀ d ∈ out, 0 < d.length) := by
  obtain ⟨hb, hw⟩ := h
  obtain ⟨c, cs, h1, h2, h3⟩ := hw.resolve_left h0
  have hc := wf_contents hb
  rw [h1] at hc
  unfold coveredRefs
  rw [h1]
  simp only
  rw [rassert_of (by simpa using h2), Res.ok_bind]
  have hcw := CRef.cut_wf hc.1 s.offset (c.length - s.offset) (by omega)
  have hct := CRef.cut_ltext c s.offset (c.length - s.offset) (by omega)
  rw [List.take_of_length_le (by rw [List.length_drop, CRef.ltext_length c hc.1]; exact Nat.le_refl _)] at hct
  obtain ⟨out, g1, g2, g3, g4, g5, g6⟩ := collectRefs_spec
    { c with offset := c.offset + s.offset, length := c.length - s.offset } cs s.length ⟨hcw, hc.2⟩
    (by simp; omega)
  refine ⟨out, g1, ?_, g3, g4, ?_, ?_⟩
  · rw [g2, ltext, h1, CRef.ltextList_cons, CRef.ltextList_cons, hct,
      List.drop_append_of_le_length (by rw [CRef.ltext_length c hc.1]; omega)]
  · intro hm
    rw [Block.mono_eq] at hm
    have hm : CRef.MonoList s.contents := CRef.monoList_drop _ hm
    rw [h1] at hm
    exact g5 ⟨by rw [CRef.mono_iff]; exact (CRef.mono_iff c).mp hm.1, hm.2⟩
  · intro hs
    refine g6 ?_ (by omega)
    intro d hd
    rcases List.mem_cons.mp hd with rfl | hd
    · simp only; omega
    · apply hs
      have : d ∈ s.contents := by rw [h1]; simp [hd]
      exact List.mem_of_mem_drop this

/-! ### Simplification -/

theorem dropRefs_spec (cs : List CRef) (o : Nat) (hw : CRef.WFList cs) (h : o < lensum cs) :
    ∃ out, dropRefs cs o = .ok out ∧ CRef.ltextList out = (CRef.ltextList cs).drop o ∧ CRef.WFList out ∧
      lensum out = lensum cs - o ∧ CRef.depthList out ≤ CRef.depthList cs ∧
      (CRef.MonoList cs → CRef.MonoList out) ∧ out.length ≤ cs.length := by
  induction cs generalizing o with
  | nil => simp at h
  | cons c cs ih =>
    simp only [dropRefs]
    by_cases hc : c.length ≤ o
    · rw [if_pos hc]
      obtain ⟨out, h1, h2, h3, h4, h5, h6, h7⟩ := ih (o - c.length) hw.2 (by simp at h; omega)
      refine ⟨out, h1, ?_, h3, ?_, ?_, fun hm => h6 hm.2, by simp; omega⟩
      · rw [h2, CRef.ltextList_cons, List.drop_append, CRef.ltext_drop hw.1 hc,
          CRef.ltext_length c hw.1]; rfl
      · simp; omega
      · simp only [CRef.depthList]; omega
    · rw [if_neg hc]
      have hcw := CRef.cut_wf hw.1 o (c.length - o) (by omega)
      have hct := CRef.cut_ltext c o (c.length - o) (by omega)
      rw [List.take_of_length_le (by rw [List.length_drop, CRef.ltext_length c hw.1]; exact Nat.le_refl _)] at hct
      refine ⟨_, rfl, ?_, ⟨hcw, hw.2⟩, ?_, ?_, ?_, by simp⟩
      · rw [CRef.ltextList_cons, CRef.ltextList_cons, hct,
          List.drop_append_of_le_length (by rw [CRef.ltext_length c hw.1]; omega)]
      · simp; omega
      · cases c; simp [CRef.depthList, CRef.depth]
      · rintro ⟨h1, h2⟩
        exact ⟨by rw [CRef.mono_iff]; exact (CRef.mono_iff c).mp h1, h2⟩

theorem takeRefs_spec (cs : List CRef) (n : Nat) (hw : CRef.WFList cs) (h : n ≤ lensum cs) (h0 : 0 < n) :
    ∃ out, takeRefs cs n = .ok out ∧ CRef.ltextList out = (CRef.ltextList cs).take n ∧ CRef.WFList out ∧
      lensum out = n ∧ CRef.depthList out ≤ CRef.depthList cs ∧
      (CRef.MonoList cs → CRef.MonoList out) ∧ out.length ≤ cs.length := by
  induction cs generalizing n with
  | nil => simp at h; omega
  | cons c cs ih =>
    simp only [takeRefs]
    by_cases hc : n ≤ c.length
    · rw [if_pos hc]
      have hc' := CRef.cut_ltext c 0 n (by omega)
      have hcw := CRef.cut_wf hw.1 0 n (by omega)
      simp only [Nat.add_zero, List.drop_zero] at hc' hcw
      refine ⟨_, rfl, ?_, ⟨hcw, trivial⟩, by simp, ?_, ?_, by simp⟩
      · rw [CRef.ltextList_cons c, List.take_append_of_le_length (by rw [CRef.ltext_length c hw.1]; omega)]
        simp [hc']
      · cases c; simp only [CRef.depthList, CRef.depth]; omega
      · rintro ⟨h1, h2⟩
        exact ⟨by rw [CRef.mono_iff]; exact (CRef.mono_iff c).mp h1, trivial⟩
    · rw [if_neg hc]
      obtain ⟨out, h1, h2, h3, h4, h5, h6, h7⟩ := ih (n - c.length) hw.2 (by simp at h; omega) (by omega)
      rw [h1]
      refine ⟨c :: out, rfl, ?_, ⟨hw.1, h3⟩, by simp [h4]; omega, ?_, fun hm => ⟨hm.1, h6 hm.2⟩, by simp; omega⟩
      · rw [CRef.ltextList_cons, CRef.ltextList_cons c, h2, List.take_append, CRef.ltext_length c hw.1,
          CRef.ltext_take hw.1 (by omega)]
      · simp only [CRef.depthList]; omega

/-- What simplification of one reference guarantees. -/
def SimpOk (simp : CRef → Res CRef) (c : CRef) : Prop :=
  ∃ c', simp c = .ok c' ∧ c'.length = c.length ∧ CRef.ltext c' = CRef.ltext c ∧ CRef.WF c' ∧
    (CRef.Mono c → CRef.Mono c')

theorem simplifyList_spec (simp : CRef → Res CRef) (cs : List CRef)
    (h : ∀ c ∈ cs, 0 < c.length → SimpOk simp c) (hw : CRef.WFList cs) :
    ∃ out, simplifyList simp cs = .ok out ∧ CRef.ltextList out = CRef.ltextList cs ∧ CRef.WFList out ∧
      lensum out = lensum cs ∧ (CRef.MonoList cs → CRef.MonoList out) ∧ out.length ≤ cs.length ∧
      ∀ c ∈ out, 0 < c.length := by
  induction cs with
  | nil => exact ⟨[], rfl, rfl, trivial, rfl, id, Nat.le_refl _, by simp⟩
  | cons c cs ih =>
    obtain ⟨out, h1, h2, h3, h4, h5, h6, h7⟩ := ih (fun d hd => h d (by simp [hd])) hw.2
    simp only [simplifyList]
    by_cases hc : c.length = 0
    · rw [if_pos hc]
      refine ⟨out, h1, ?_, h3, by simp [h4, hc], fun hm => h5 hm.2, by simp; omega, h7⟩
      have : CRef.ltext c = [] := List.length_eq_zero_iff.mp (by rw [CRef.ltext_length c hw.1, hc])
      simp [h2, this]
    · rw [if_neg hc]
      obtain ⟨c', g1, g2, g3, g4, g5⟩ := h c (by simp) (by omega)
      rw [g1, Res.ok_bind, h1]
      refine ⟨c' :: out, rfl, by simp [g3, h2], ⟨g4, h3⟩, by simp [g2, h4], fun hm => ⟨g5 hm.1, h5 hm.2⟩,
        by simp; omega, ?_⟩
      intro d hd
      rcases List.mem_cons.mp hd with rfl | hd
      · omega
      · exact h7 d hd

theorem CRef.depth_le_of_mem {c : CRef} {cs : List CRef} (h : c ∈ cs) : CRef.depth c ≤ CRef.depthList cs := by
  induction cs with
  | nil => cases h
  | cons d cs ih =>
    simp only [CRef.depthList]
    rcases List.mem_cons.mp h with rfl | h
    · omega
    · have := ih h; omega

theorem LStr.slice_ascii {s : LStr} (ha : AsciiS s.contents) {o l : Nat} (h : o + l ≤ s.contents.length)
    (h0 : 0 < l) :
    s.slice o l = .ok ⟨s.loc.after (s.contents.take o), (s.contents.drop o).take l⟩ := by
  have e1 : o = blen (s.contents.take o) := by
    rw [blen_ascii (ha.take _), List.length_take]; omega
  have e2 : l = blen ((s.contents.drop o).take l) := by
    rw [blen_ascii ((ha.drop _).take _), List.length_take, List.length_drop]; omega
  have b1 : btake o s.contents = .ok (s.contents.take o) := by
    have := btake_split (s.contents.take o) (s.contents.drop o)
    rwa [← e1, List.take_append_drop] at this
  have b2 : bdrop o s.contents = .ok (s.contents.drop o) := by
    have := bdrop_split (s.contents.take o) (s.contents.drop o)
    rwa [← e1, List.take_append_drop] at this
  have b3 : btake l (s.contents.drop o) = .ok ((s.contents.drop o).take l) := by
    have := btake_split ((s.contents.drop o).take l) ((s.contents.drop o).drop l)
    rwa [← e2, List.take_append_drop] at this
  have hl : s.len = s.contents.length := blen_ascii ha
  simp only [slice]
  rw [rassert_of (by rw [hl]; simp; omega), Res.ok_bind, rassert_of (by rw [hl]; simp; omega), Res.ok_bind, b1, Res.ok_bind,
    b2, Res.ok_bind, b3]
  simp

theorem LStr.slice_ltext (s : LStr) (o l : Nat) :
    (⟨s.loc.after (s.contents.take o), (s.contents.drop o).take l⟩ : LStr).ltext = (s.ltext.drop o).take l := by
  simp only [LStr.ltext]
  rw [locate_take, locate_drop]

theorem simplifyRef_constant (d : Nat) (o l : Nat) (s : LStr) :
    simplifyRef d ⟨o, l, .constant s⟩ = (do let s' ← s.slice o l; return ⟨0, l, .constant s'⟩) := by
  cases d <;> rfl

theorem simpOk_constant (d : Nat) (o l : Nat) (s : LStr) (hw : CRef.WF (⟨o, l, .constant s⟩ : CRef)) (h0 : 0 < l) :
    SimpOk (simplifyRef d) (⟨o, l, .constant s⟩ : CRef) := by
  obtain ⟨h1, h2⟩ := hw
  have h2 : AsciiS s.contents := h2
  have h1 : o + l ≤ s.contents.length := by rw [← blen_ascii h2]; exact h1
  have hs := LStr.slice_ascii h2 h1 h0
  refine ⟨⟨0, l, .constant ⟨s.loc.after (s.contents.take o), (s.contents.drop o).take l⟩⟩,
    by rw [simplifyRef_constant, hs]; rfl, rfl, ?_, ?_, fun _ => trivial⟩
  · simp only [CRef.ltext, Node.ltext]
    rw [LStr.slice_ltext, List.drop_zero, List.take_take, Nat.min_self]
  · refine ⟨?_, (h2.drop o).take l⟩
    simp only [Node.len, LStr.len]
    rw [blen_ascii ((h2.drop o).take l), List.length_take, List.length_drop]
    omega

theorem simplifyRef_spec (d : Nat) (c : CRef) (hw : CRef.WF c) (hd : CRef.depth c ≤ d) (h0 : 0 < c.length) :
    SimpOk (simplifyRef d) c := by
  induction d generalizing c with
  | zero =>
    rcases c with ⟨o, l, n⟩
    cases n with
    | constant s => exact simpOk_constant 0 o l s hw h0
    | concat b => simp [CRef.depth, Node.depth] at hd
    | _ => exact ⟨_, rfl, rfl, rfl, hw, id⟩
  | succ d ih =>
    rcases c with ⟨o, l, n⟩
    cases n with
    | constant s => exact simpOk_constant _ o l s hw h0
    | concat b =>
      obtain ⟨h1, h2⟩ := hw
      have h1 : o + l ≤ lensum b.content := h1
      have h0 : 0 < l := h0
      have h2 : CRef.WFList b.content := by rw [← Block.wf_eq]; exact h2
      have hd : CRef.depthList b.content ≤ d := by
        rcases b with ⟨s, cs⟩
        simpa [CRef.depth, Node.depth, Block.depth] using hd
      obtain ⟨o1, a1, a2, a3, a4, a5, a6, a7⟩ := dropRefs_spec b.content o h2 (by omega)
      obtain ⟨o2, b1, b2, b3, b4, b5, b6, b7⟩ := takeRefs_spec o1 l a3 (by omega) h0
      obtain ⟨o3, c1, c2, c3, c4, c5, c6, c7⟩ := simplifyList_spec (simplifyRef d) o2
        (fun c hc hp => ih c ((CRef.wfList_iff _).mp b3 c hc)
          (by have := CRef.depth_le_of_mem hc; omega) hp) b3
      have hl : lensum o3 = l := by omega
      refine ⟨⟨0, l, .concat ⟨b.sens, o3⟩⟩, ?_, rfl, ?_, ?_, ?_⟩
      · show (do let kept ← dropRefs b.content o; let kept ← takeRefs kept l
                 let content ← simplifyList (simplifyRef d) kept
                 return (⟨0, l, .concat ⟨b.sens, content⟩⟩ : CRef)) = _
        rw [a1, Res.ok_bind, b1, Res.ok_bind, c1]; rfl
      · simp only [CRef.ltext, Node.ltext, Block.ltext, List.drop_zero, Block.ltext_eq]
        rw [c2, b2, a2, List.take_take, Nat.min_self]
      · exact ⟨by show 0 + l ≤ lensum o3; omega, c3⟩
      · rintro ⟨m1, m2⟩
        rw [Block.mono_eq] at m2
        exact ⟨by show o3.length ≤ 1; omega, c5 (b6 (a6 m2))⟩
    | _ => exact ⟨_, rfl, rfl, rfl, hw, id⟩

theorem Block.simplify_spec {b : Block} (hw : Block.WF b) :
    ∃ b', b.simplify = .ok b' ∧ Block.ltext b' = Block.ltext b ∧ b'.len = b.len ∧ b'.sens = b.sens ∧
      Block.WF b' ∧ b'.Solid ∧ (Block.Mono b → Block.Mono b') := by
  rw [Block.wf_eq] at hw
  obtain ⟨out, h1, h2, h3, h4, h5, h6, h7⟩ := simplifyList_spec (simplifyRef (CRef.depthList b.content)) b.content
    (fun c hc hp => simplifyRef_spec _ c ((CRef.wfList_iff _).mp hw c hc) (CRef.depth_le_of_mem hc) hp) hw
  refine ⟨⟨b.sens, out⟩, ?_, ?_, ?_, rfl, h3, h7, ?_⟩
  · unfold Block.simplify; rw [h1]; rfl
  · rw [Block.ltext_eq, Block.ltext_eq]; exact h2
  · rw [Block.len_eq, Block.len_eq]; exact h4
  · rw [Block.mono_eq, Block.mono_eq]; exact h5

theorem Block.new_spec {sens : Sens} {cs : List CRef} (hw : CRef.WFList cs) :
    ∃ b, Block.new sens cs = .ok b ∧ Block.ltext b = CRef.ltextList cs ∧ b.len = lensum cs ∧ b.sens = sens ∧
      Block.WF b ∧ b.Solid ∧ (CRef.MonoList cs → Block.Mono b) := by
  obtain ⟨b, h1, h2, h3, h4, h5, h6, h7⟩ := Block.simplify_spec (b := ⟨sens, cs⟩) hw
  exact ⟨b, h1, h2, h3, h4, h5, h6, h7⟩

theorem Block.text_length {b : Block} (h : Block.WF b) : b.text.length = b.len := by
  simp [Block.text, textOf, Block.ltext_length b h]

/-! ### Blocks from spans -/

theorem Span.toNewBlock_spec {s : Span} (h : s.Good) :
    ∃ b, s.toNewBlock = .ok b ∧ Block.ltext b = s.ltext ∧ b.len = s.length ∧
      b.sens = (if s.length = 0 then [] else s.parent.sens) ∧ Block.WF b ∧ b.Solid ∧
      (Block.Mono s.parent → Block.Mono b) := by
  unfold toNewBlock
  by_cases h0 : s.length = 0
  · rw [if_pos h0, if_pos h0]
    refine ⟨_, rfl, ?_, by rw [h0]; rfl, rfl, trivial, by simp [Block.Solid, Block.empty], fun _ => trivial⟩
    have := Span.ltext_length h.wf
    rw [h0, List.length_eq_zero_iff] at this
    rw [this]; rfl
  · rw [if_neg h0, if_neg h0]
    obtain ⟨out, h1, h2, h3, h4, h5, h6⟩ := s.coveredRefs_spec h h0
    obtain ⟨b, g1, g2, g3, g4, g5, g6, g7⟩ := Block.new_spec (sens := s.parent.sens) h3
    refine ⟨b, by rw [h1]; exact g1, by rw [g2, h2], by rw [g3, h4], g4, g5, g6, fun hm => g7 (h5 hm)⟩

theorem Block.pushAll_spec {b : Block} {s : Span} (hb : Block.WF b) (h : s.Good) :
    ∃ b', b.pushAll s = .ok b' ∧ Block.ltext b' = Block.ltext b ++ s.ltext ∧ b'.len = b.len + s.length ∧
      b'.sens = (if s.length = 0 then b.sens else Sens.union b.sens s.parent.sens) ∧ Block.WF b' ∧
      (Block.Mono b → Block.Mono s.parent → Block.Mono b') ∧ (b.Solid → s.parent.Solid → b'.Solid) := by
  unfold Block.pushAll
  by_cases h0 : s.length = 0
  · rw [if_pos h0, if_pos h0]
    have := Span.ltext_length h.wf
    rw [h0, List.length_eq_zero_iff] at this
    exact ⟨b, rfl, by simp [this], by omega, rfl, hb, fun hm _ => hm, fun hs _ => hs⟩
  · rw [if_neg h0, if_neg h0]
    obtain ⟨out, h1, h2, h3, h4, h5, h6⟩ := s.coveredRefs_spec h h0
    rw [h1]
    refine ⟨_, rfl, ?_, ?_, rfl, ?_, ?_, ?_⟩
    · rw [Block.ltext_eq, Block.ltext_eq b, ← h2]; simp
    · rw [Block.len_eq, Block.len_eq]; simp [h4]
    · rw [Block.wf_eq] at *; exact CRef.wfList_append.mpr ⟨hb, h3⟩
    · intro m1 m2
      rw [Block.mono_eq] at *
      exact CRef.monoList_append.mpr ⟨m1, h5 m2⟩
    · intro s1 s2 d hd
      rcases List.mem_append.mp hd with hd | hd
      · exact s1 d hd
      · exact h6 s2 d hd

end Hastur
