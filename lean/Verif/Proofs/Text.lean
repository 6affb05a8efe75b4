import Verif.Proofs.Location
import Verif.Spec.Text
/-
Lemmas: character iteration against the text.
-/
namespace Hastur

/-! ### ASCII -/

theorem utf8Size_ascii {c : Char} (h : isAscii c = true) : c.utf8Size = 1 := by
  unfold isAscii at h
  have h1 : c.val < 128 := by simpa using h
  have : c.val.toNat < 128 := h1
  unfold Char.utf8Size
  have h2 : c.val ≤ 127 := by
    rw [UInt32.le_iff_toNat_le]
    simp only [UInt32.reduceToNat]; omega
  simp [h2]

theorem blen_ascii {s : Str} (h : AsciiS s) : blen s = s.length := by
  induction s with
  | nil => rfl
  | cons c s ih =>
    rw [blen_cons, utf8Size_ascii (h c (by simp)), ih (fun d hd => h d (by simp [hd]))]
    simp [Nat.add_comm]

theorem AsciiS.append {a b : Str} (ha : AsciiS a) (hb : AsciiS b) : AsciiS (a ++ b) := by
  intro c hc
  rcases List.mem_append.mp hc with h | h
  · exact ha c h
  · exact hb c h

theorem AsciiS.take {a : Str} (n : Nat) (ha : AsciiS a) : AsciiS (a.take n) :=
  fun c hc => ha c (List.mem_of_mem_take hc)

theorem AsciiS.drop {a : Str} (n : Nat) (ha : AsciiS a) : AsciiS (a.drop n) :=
  fun c hc => ha c (List.mem_of_mem_drop hc)

theorem AsciiS.of_cons {c : Char} {a : Str} (h : AsciiS (c :: a)) : isAscii c = true ∧ AsciiS a :=
  ⟨h c (by simp), fun d hd => h d (by simp [hd])⟩

/-! ### Located strings -/

@[simp] theorem locate_length (l : Location) (s : Str) : (locate l s).length = s.length := by
  induction s generalizing l with
  | nil => rfl
  | cons c s ih => simp [locate, ih]

@[simp] theorem locate_fst (l : Location) (s : Str) : (locate l s).map Prod.fst = s := by
  induction s generalizing l with
  | nil => rfl
  | cons c s ih => simp [locate, ih]

theorem locate_append (l : Location) (a b : Str) : locate l (a ++ b) = locate l a ++ locate (l.after a) b := by
  induction a generalizing l with
  | nil => simp [locate]
  | cons c a ih =>
    simp only [List.cons_append, locate, ih]
    rw [← Location.after_append, List.singleton_append]

theorem locate_take (l : Location) (s : Str) (n : Nat) : locate l (s.take n) = (locate l s).take n := by
  conv_rhs => rw [← List.take_append_drop n s, locate_append]
  by_cases h : n ≤ s.length
  · rw [List.take_left' (by simp [h])]
  · have h : s.length ≤ n := by omega
    rw [List.take_of_length_le h, List.drop_of_length_le h]
    simp only [locate, List.append_nil]
    rw [List.take_of_length_le (by simpa using h)]

theorem locate_drop (l : Location) (s : Str) (n : Nat) :
    locate (l.after (s.take n)) (s.drop n) = (locate l s).drop n := by
  conv_rhs => rw [← List.take_append_drop n s, locate_append]
  by_cases h : n ≤ s.length
  · rw [List.drop_left' (by simp [h])]
  · have h : s.length ≤ n := by omega
    rw [List.take_of_length_le h, List.drop_of_length_le h]
    simp only [locate, List.append_nil]
    rw [List.drop_of_length_le (by simpa using h)]

/-! ### Lists of references -/

@[simp] theorem lensum_nil : lensum [] = 0 := rfl
@[simp] theorem lensum_cons (c : CRef) (cs : List CRef) : lensum (c :: cs) = c.length + lensum cs := rfl
@[simp] theorem lensum_append (a b : List CRef) : lensum (a ++ b) = lensum a + lensum b := by
  simp [lensum]

theorem Block.len_eq (b : Block) : b.len = lensum b.content := rfl

@[simp] theorem CRef.ltextList_nil : CRef.ltextList [] = [] := rfl
@[simp] theorem CRef.ltextList_cons (c : CRef) (cs : List CRef) :
    CRef.ltextList (c :: cs) = CRef.ltext c ++ CRef.ltextList cs := rfl
@[simp] theorem CRef.ltextList_append (a b : List CRef) :
    CRef.ltextList (a ++ b) = CRef.ltextList a ++ CRef.ltextList b := by
  induction a with
  | nil => rfl
  | cons c a ih => simp [ih]

theorem Block.ltext_eq (b : Block) : Block.ltext b = CRef.ltextList b.content := by
  cases b; rfl

theorem CRef.ltext_eq (c : CRef) : CRef.ltext c = ((Node.ltext c.node).drop c.offset).take c.length := by
  cases c; rfl

theorem CRef.wf_iff (c : CRef) : CRef.WF c ↔ c.offset + c.length ≤ c.node.len ∧ Node.WF c.node := by
  cases c; rfl

theorem Block.wf_eq (b : Block) : Block.WF b = CRef.WFList b.content := by
  cases b; rfl

theorem CRef.wfList_iff (cs : List CRef) : CRef.WFList cs ↔ ∀ c ∈ cs, CRef.WF c := by
  induction cs with
  | nil => simp [CRef.WFList]
  | cons c cs ih => simp [CRef.WFList, ih]

theorem CRef.wfList_append {a b : List CRef} : CRef.WFList (a ++ b) ↔ CRef.WFList a ∧ CRef.WFList b := by
  simp only [CRef.wfList_iff, List.mem_append]
  constructor
  · intro h; exact ⟨fun c hc => h c (Or.inl hc), fun c hc => h c (Or.inr hc)⟩
  · rintro ⟨h1, h2⟩ c (hc | hc)
    · exact h1 c hc
    · exact h2 c hc

theorem CRef.wfList_drop {a : List CRef} (n : Nat) (h : CRef.WFList a) : CRef.WFList (a.drop n) := by
  rw [CRef.wfList_iff] at *
  exact fun c hc => h c (List.mem_of_mem_drop hc)

/-! ### Lengths -/

mutual
theorem Node.ltext_length : ∀ n : Node, Node.WF n → (Node.ltext n).length = n.len
  | .constant s, h => by
    simp only [Node.ltext, LStr.ltext, locate_length, Node.len, LStr.len]
    rw [blen_ascii h]
  | .concat v, h => Block.ltext_length v h
  | .varRef _ v, h => Block.ltext_length v h
  | .subRef _ _ _ v, h => Block.ltext_length v h
  | .evaluated v, h => Block.ltext_length v h
theorem Block.ltext_length : ∀ b : BlockOf Node, Block.WF b → (Block.ltext b).length = Block.len b
  | ⟨_, content⟩, h => CRef.ltextList_length content h
theorem CRef.ltextList_length : ∀ cs : List (CRefOf Node), CRef.WFList cs →
    (CRef.ltextList cs).length = (cs.map (·.length)).sum
  | [], _ => rfl
  | c :: cs, h => by
    rw [CRef.ltextList, List.length_append, CRef.ltext_length c h.1, CRef.ltextList_length cs h.2]
    simp
theorem CRef.ltext_length : ∀ c : CRefOf Node, CRef.WF c → (CRef.ltext c).length = c.length
  | ⟨offset, length, node⟩, h => by
    obtain ⟨h1, h2⟩ := h
    rw [CRef.ltext, List.length_take, List.length_drop, Node.ltext_length node h2]
    simp only []
    omega
end

/-! ### ASCII text -/

mutual
theorem Node.ltext_ascii : ∀ n : Node, Node.WF n → AsciiS (textOf (Node.ltext n))
  | .constant s, h => by
    simp only [Node.ltext, LStr.ltext, textOf, locate_fst]; exact h
  | .concat v, h => Block.ltext_ascii v h
  | .varRef _ v, h => Block.ltext_ascii v h
  | .subRef _ _ _ v, h => Block.ltext_ascii v h
  | .evaluated v, h => Block.ltext_ascii v h
theorem Block.ltext_ascii : ∀ b : BlockOf Node, Block.WF b → AsciiS (textOf (Block.ltext b))
  | ⟨_, content⟩, h => CRef.ltextList_ascii content h
theorem CRef.ltextList_ascii : ∀ cs : List (CRefOf Node), CRef.WFList cs →
    AsciiS (textOf (CRef.ltextList cs))
  | [], _ => by intro c hc; simp [CRef.ltextList, textOf] at hc
  | c :: cs, h => by
    rw [CRef.ltextList, textOf, List.map_append]
    exact (CRef.ltext_ascii c h.1).append (CRef.ltextList_ascii cs h.2)
theorem CRef.ltext_ascii : ∀ c : CRefOf Node, CRef.WF c → AsciiS (textOf (CRef.ltext c))
  | ⟨offset, length, node⟩, h => by
    rw [CRef.ltext, textOf, List.map_take, List.map_drop]
    exact ((Node.ltext_ascii node h.2).drop _).take _
end

/-! ### Characters -/

theorem limitBytes_ascii (n : Nat) (cs : List Char) (crash : Bool) (h : AsciiS cs) :
    limitBytes n cs crash = ⟨cs.take n, if n ≤ cs.length then false else crash⟩ := by
  induction cs generalizing n with
  | nil =>
    cases n with
    | zero => simp [limitBytes]
    | succ n => simp [limitBytes]
  | cons c cs ih =>
    cases n with
    | zero => simp [limitBytes]
    | succ n =>
      obtain ⟨h1, h2⟩ := h.of_cons
      simp only [limitBytes, utf8Size_ascii h1]
      rw [if_pos (by omega), show n + 1 - 1 = n from rfl, ih n h2]
      simp

mutual
theorem Node.chars_eq : ∀ n : Node, Node.WF n → Node.chars n = ⟨textOf (Node.ltext n), false⟩
  | .constant s, _ => by simp [Node.chars, Node.ltext, LStr.ltext, textOf]
  | .concat v, h => Block.chars_eq v h
  | .varRef _ v, h => Block.chars_eq v h
  | .subRef _ _ _ v, h => Block.chars_eq v h
  | .evaluated v, h => Block.chars_eq v h
theorem Block.chars_eq : ∀ b : BlockOf Node, Block.WF b → Block.chars b = ⟨textOf (Block.ltext b), false⟩
  | ⟨s, content⟩, h => by
    have hl := CRef.ltextList_length content h
    have ha := CRef.ltextList_ascii content h
    simp only [Block.chars, Block.ltext, CRef.charsList_eq content h]
    rw [limitBytes_ascii _ _ _ ha, ← hl]
    have : (CRef.ltextList content).length = (textOf (CRef.ltextList content)).length := by simp [textOf]
    rw [this, List.take_length]
    simp
theorem CRef.charsList_eq : ∀ cs : List (CRefOf Node), CRef.WFList cs →
    CRef.charsList cs = ⟨textOf (CRef.ltextList cs), false⟩
  | [], _ => rfl
  | c :: cs, h => by
    rw [CRef.charsList, CRef.chars_eq c h.1, CRef.charsList_eq cs h.2]
    simp [CStream.append, CRef.ltextList, textOf]
theorem CRef.chars_eq : ∀ c : CRefOf Node, CRef.WF c → CRef.chars c = ⟨textOf (CRef.ltext c), false⟩
  | ⟨offset, length, node⟩, h => by
    have hl := Node.ltext_length node h.2
    have h1 := h.1
    simp only [CRef.chars, refChars, Node.chars_eq node h.2, CStream.skip, CStream.take, CRef.ltext, textOf]
    rw [if_pos (by simp [hl]; omega), List.map_take, List.map_drop]
end

theorem Block.intoString_eq (b : Block) (h : Block.WF b) : b.intoString = .ok b.text := by
  rw [Block.wf_eq] at h
  simp [Block.intoString, CRef.charsList_eq _ h, CStream.all, Block.text, Block.ltext_eq]

end Hastur
