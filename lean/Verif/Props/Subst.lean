import Verif.Proofs.SubstRef
import Verif.Proofs.SubstPieces
import Verif.Proofs.Demo
/-
C38: substitution references.
-/
namespace Hastur

open Res

/-- The full claim about the words of a value. -/
def C38_full : Prop :=
  ∀ (sens : Sens) (value key replacement : Block), Block.WF value → value.Solid → Block.WF key → key.Solid →
    Block.WF replacement → replacement.Solid →
    ∃ b, doSubref sens value key replacement = .ok b ∧
      (substRule (Block.ltext key) (Block.ltext replacement)).Gives (wordsOf (Block.ltext value)) (Block.ltext b)

private theorem fields_congr {p q : Char → Bool} {t : List LChar} (h : ∀ x ∈ t, p x.1 = q x.1) : fields p t = fields q t := by
  have key : ∀ (t cur : List LChar), (∀ x ∈ t, p x.1 = q x.1) → fieldsFrom p cur t = fieldsFrom q cur t := by
    intro t
    induction t with
    | nil => intro cur _; rfl
    | cons x t ih =>
      intro cur h
      have ih' := fun cur => ih cur fun y hy => h y (List.mem_cons_of_mem _ hy)
      simp only [fieldsFrom, h x (List.mem_cons_self ..), ih']
  exact key t [] h

private theorem gives_of_done {R : SubstRule} {t : List LChar} {outs : List (List LChar)}
    (hb : ∀ x ∈ t, isWhitespace x.1 = true → x.1 = ' ' ∨ x.1 = '\t') (hp : ∀ w ∈ wordsOf t, R.Plain w)
    (h : List.Forall₂ R.Done (fields isBlank t) outs) : R.Gives (wordsOf t) (joinSpaces outs) := by
  have hf : wordsOf t = fields isBlank t := fields_congr fun x hx => by
    rw [Bool.eq_iff_iff]
    constructor
    · intro hw
      rcases hb x hx hw with e | e <;> rw [e] <;> rfl
    · intro hw
      have : x.1 = ' ' ∨ x.1 = '\t' := by simpa [isBlank] using hw
      rcases this with e | e <;> rw [e] <;> rfl
  rw [hf] at hp ⊢
  refine ⟨outs, ?_, rfl⟩
  clear hf hb
  generalize fields isBlank t = ws at h hp
  induction h with
  | nil => exact .nil
  | cons h1 _ ih => exact .cons ((hp _ (List.mem_cons_self ..)).word h1) (ih fun w hw => hp w (List.mem_cons_of_mem _ hw))

/-- What the engine does, for values whose words do not go from one piece of the value into the next: in a word that
begins with the prefix and in which the first occurrence of the suffix after that is at the end, the parts around the
stem are replaced, and any other word is left alone. -/
theorem C38_words_exact (sens : Sens) (value key replacement : Block) (hv : Block.WF value) (hv' : value.Solid)
    (hk : Block.WF key) (hk' : key.Solid) (hr : Block.WF replacement) (hr' : replacement.Solid)
    (h1 : value.Apart) :
    ∃ outs b, doSubref sens value key replacement = .ok b ∧
      List.Forall₂ (substRule (Block.ltext key) (Block.ltext replacement)).Done (substWords (Block.ltext value)) outs ∧
      Block.ltext b = joinSpaces outs ∧ ∀ v, v ∈ b.sens → v ∈ sens ∨ v ∈ value.sens ∨ v ∈ replacement.sens := by
  obtain ⟨outs, b, b1, b2, b3, _, _, b4⟩ := doSubref_exact (sens := sens)
    (S := Sens.union (Sens.union sens value.sens) replacement.sens) hv hv' hk hk' hr hr' h1
    (fun v hv => by simp [Sens.mem_union, hv]) (fun v hv => by simp [Sens.mem_union, hv])
    (fun v hv => by simp [Sens.mem_union, hv])
  refine ⟨outs, b, b2, b1, b3, fun v hv => ?_⟩
  have := b4 v hv
  simpa [Sens.mem_union, or_assoc] using this

/-- In particular a word that begins with the prefix is left alone if the suffix occurs before its end, too.  With an empty
suffix these are all the words longer than the prefix. -/
theorem C38_repeated_suffix (R : SubstRule) (w out a u : List LChar) (p q : Str) (h : R.Done w out) (hw : w = a ++ u)
    (ha : textOf a = R.pre) (hu : textOf u = p ++ (R.post ++ q)) (hq : q ≠ []) : out = w := by
  cases h with
  | miss => rfl
  | @hit a' stem b e ea eb hf =>
    have hl : a'.length = a.length := by rw [← textOf_length a', ← textOf_length a, ea, ha]
    have e' : u = stem ++ b := (List.append_inj (hw.symm.trans e) hl.symm).2
    have h1 := hf.2 p q (by rw [← e', hu, List.append_assoc])
    have h2 := congrArg List.length hu
    rw [e', textOf_length, List.length_append, ← textOf_length b, eb] at h2
    simp only [List.length_append] at h2
    have := List.length_pos_iff.mpr hq
    omega

/-- C38 for values whose words are separated by spaces and tabs and do not go from one piece of the value into the next,
keys other than the empty one and `%`, and matching words in which the suffix occurs only at the end.  Not covered are
words made of several pieces, words separated by line feeds, the two keys that match every word, and words with a
repeated suffix. -/
theorem C38_words_partial (sens : Sens) (value key replacement : Block) (hv : Block.WF value) (hv' : value.Solid)
    (hk : Block.WF key) (hk' : key.Solid) (hr : Block.WF replacement) (hr' : replacement.Solid)
    (h1 : value.Apart)
    (hne : ¬ ((substRule (Block.ltext key) (Block.ltext replacement)).pre = [] ∧
      (substRule (Block.ltext key) (Block.ltext replacement)).post = []))
    (hb : ∀ x ∈ Block.ltext value, isWhitespace x.1 = true → x.1 = ' ' ∨ x.1 = '\t')
    (hp : ∀ w ∈ wordsOf (Block.ltext value), (substRule (Block.ltext key) (Block.ltext replacement)).Plain w) :
    ∃ b, doSubref sens value key replacement = .ok b ∧
      (substRule (Block.ltext key) (Block.ltext replacement)).Gives (wordsOf (Block.ltext value)) (Block.ltext b) ∧
      ∀ v, v ∈ b.sens → v ∈ sens ∨ v ∈ value.sens ∨ v ∈ replacement.sens := by
  obtain ⟨outs, b, b1, b2, b3, b4⟩ := C38_words_exact sens value key replacement hv hv' hk hk' hr hr' h1
  obtain ⟨outs', c1, c2⟩ := SubstRule.done_fields hne b2
  exact ⟨b, b1, by rw [b3, c2]; exact gives_of_done hb hp c1, b4⟩

/-- The same for references: if the name of a reference expands to `n:k=r` (with no further colon or equals sign where
it would be mistaken for these), and the value of the variable `n` expands to `u`, the reference evaluates to the words
of `u` after the substitution; an undefined variable has no words.  The variables reported are those consulted by the
name, `n`, and those consulted by its value. -/
theorem C38_reference_exact (fs : Fs) (l l1 l2 : Location) (a : Ast) (st : St) (n k r u : List LChar) (ns us : List Str)
    (ha : a.WF) (hst : st.WF) (hn : Expands st.env a.flat (n ++ (':', l1) :: (k ++ ('=', l2) :: r)) ns)
    (hk : ':' ∉ textOf k) (hr : ':' ∉ textOf r) (hr' : '=' ∉ textOf r)
    (hu : (st.env (textOf n) = none ∧ u = [] ∧ us = []) ∨
      ∃ body, st.env (textOf n) = some body ∧ Expands st.env body u us)
    (h1 : OnePiece fs a st)
    (h2 : ∀ p, (st.interned (ns ++ [textOf n])).lookup (textOf n) = some p →
      WholeWords fs p.value (st.interned (ns ++ [textOf n]))) :
    ∃ outs, List.Forall₂ (substRule k r).Done (substWords u) outs ∧ ∃ N, ∀ m, N ≤ m → ∃ b,
      evalF fs m (.varRef l a) st = .ok (b, st.interned (ns ++ textOf n :: us)) ∧ Block.ltext b = joinSpaces outs ∧
      ∀ v, v ∈ b.sens ↔ ∃ s ∈ ns ++ textOf n :: us, (st.interned (ns ++ textOf n :: us)).names.variableName s = some v := by
  obtain ⟨N, hN⟩ := evals_of_expands fs ha hst hn
  have hw1 := hst.interned ns
  have hw2 := hw1.interned [textOf n]
  obtain ⟨hv, henv⟩ := hw1.intern (textOf n)
  rw [hst.env_interned ns] at henv
  have happ : st.interned (ns ++ [textOf n]) = (st.interned ns).interned [textOf n] := St.interned_append ..
  have hlook : ∀ p, st.db.getVariable (((st.interned ns).names.internVar (textOf n)).1) = some p →
      WholeWords fs p.value ((st.interned ns).interned [textOf n]) := by
    intro p hp
    rw [← happ]
    refine h2 p ?_
    rw [happ, St.lookup, hv]
    exact hp
  obtain ⟨M, hu'⟩ : ∃ M, (st.env (textOf n) = none ∧ u = [] ∧ us = []) ∨
      (∀ p, st.db.getVariable (((st.interned ns).names.internVar (textOf n)).1) = some p →
        Evals fs ((st.interned ns).interned [textOf n]) M p.value u us ∧
        WholeWords fs p.value ((st.interned ns).interned [textOf n])) ∧ st.env (textOf n) ≠ none := by
    rcases hu with hu | ⟨body, hu1, hu2⟩
    · exact ⟨0, .inl hu⟩
    · rw [hu1] at henv
      obtain ⟨p, hp, hflat⟩ := Option.map_eq_some_iff.mp henv.symm
      have hp : st.db.getVariable (((st.interned ns).names.internVar (textOf n)).1) = some p := hp
      obtain ⟨M, hM⟩ := evals_of_expands fs (st := (st.interned ns).interned [textOf n]) (hst.values _ _ hp) hw2
        (t := u) (vs := us) (by rw [hw1.env_interned, hst.env_interned, hflat]; exact hu2)
      refine ⟨M, .inr ⟨fun p' hp' => ?_, by rw [hu1]; simp⟩⟩
      rw [hp] at hp'
      cases hp'
      exact ⟨hM, hlook p hp⟩
  obtain ⟨outs, o1, o2⟩ := evals_subref (l := l) hst (hN.mono (Nat.le_max_left N M)) h1 hk hr hr'
    (hu'.imp id fun ⟨h, h'⟩ => ⟨fun p hp => ⟨(h p hp).1.mono (Nat.le_max_right N M), (h p hp).2⟩, h'⟩)
  refine ⟨outs, o1, max N M + 1, fun m hm => ?_⟩
  obtain ⟨b, b1, b2, b3, _⟩ := (o2.mono hm).eval
  exact ⟨b, b1, b2, b3⟩

/-- C38 for references: if the name of a reference expands to `n:k=r` (with no further colon or equals sign where it
would be mistaken for these), and the value of the variable `n` expands to `u`, the reference evaluates to the words of
`u` after the substitution; an undefined variable has no words.  The variables reported are those consulted by the name,
`n`, and those consulted by its value.  The restrictions are those of the theorem above. -/
theorem C38_reference_partial (fs : Fs) (l l1 l2 : Location) (a : Ast) (st : St) (n k r u : List LChar) (ns us : List Str)
    (ha : a.WF) (hst : st.WF) (hn : Expands st.env a.flat (n ++ (':', l1) :: (k ++ ('=', l2) :: r)) ns)
    (hk : ':' ∉ textOf k) (hr : ':' ∉ textOf r) (hr' : '=' ∉ textOf r)
    (hu : (st.env (textOf n) = none ∧ u = [] ∧ us = []) ∨
      ∃ body, st.env (textOf n) = some body ∧ Expands st.env body u us)
    (h1 : OnePiece fs a st)
    (h2 : ∀ p, (st.interned (ns ++ [textOf n])).lookup (textOf n) = some p →
      WholeWords fs p.value (st.interned (ns ++ [textOf n])))
    (hne : ¬ ((substRule k r).pre = [] ∧ (substRule k r).post = []))
    (hb : ∀ x ∈ u, isWhitespace x.1 = true → x.1 = ' ' ∨ x.1 = '\t') (hp : ∀ w ∈ wordsOf u, (substRule k r).Plain w) :
    ∃ t, (substRule k r).Gives (wordsOf u) t ∧ ∃ N, ∀ m, N ≤ m → ∃ b,
      evalF fs m (.varRef l a) st = .ok (b, st.interned (ns ++ textOf n :: us)) ∧ Block.ltext b = t ∧
      ∀ v, v ∈ b.sens ↔ ∃ s ∈ ns ++ textOf n :: us, (st.interned (ns ++ textOf n :: us)).names.variableName s = some v := by
  obtain ⟨outs, o1, o2⟩ := C38_reference_exact fs l l1 l2 a st n k r u ns us ha hst hn hk hr hr' hu h1 h2
  obtain ⟨outs', c1, c2⟩ := SubstRule.done_fields hne o1
  rw [c2] at o2
  exact ⟨_, gives_of_done hb hp c1, o2⟩

private def block (s : String) : Block := textBlock .synthetic s.toList

private theorem block_ok {s : String} (h : AsciiS s.toList) (h0 : s.toList ≠ []) :
    Block.WF (block s) ∧ (block s).Solid ∧ Block.ltext (block s) = locate .synthetic s.toList ∧
      (block s).content.length ≤ 1 := by
  refine ⟨textBlock_wf h, ?_, textBlock_ltext h, Nat.le_refl 1⟩
  intro c hc
  cases List.mem_singleton.mp hc
  show 0 < blen s.toList
  rw [blen_ascii h]
  exact List.length_pos_iff.mpr h0

/-- The text that a substitution gives. -/
private def substText (value key replacement : String) : Res Str :=
  doSubref [] (block value) (block key) (block replacement) >>= fun b => .ok b.text

/-- The word `a.c.c` matches `.c`, but is left alone: only the first occurrence of the suffix is looked at. -/
theorem C38_refuted : ¬ C38_full := by
  intro h
  obtain ⟨v1, v2, v3, _⟩ := block_ok (s := "a.c.c") (by unfold AsciiS; decide) (by decide)
  obtain ⟨k1, k2, k3, _⟩ := block_ok (s := ".c") (by unfold AsciiS; decide) (by decide)
  obtain ⟨r1, r2, r3, _⟩ := block_ok (s := ".o") (by unfold AsciiS; decide) (by decide)
  obtain ⟨b, h1, outs, h2, h3⟩ := h [] _ _ _ v1 v2 k1 k2 r1 r2
  have hb : substText "a.c.c" ".c" ".o" = .ok "a.c.c".toList := by decide +kernel
  rw [substText, h1, ok_bind, Res.ok.injEq, Block.text, h3] at hb
  rw [v3, k3, r3] at h2
  have hw : wordsOf (locate .synthetic "a.c.c".toList) = [locate .synthetic "a.c.c".toList] := by decide
  rw [hw] at h2
  have hR : (substRule (locate .synthetic ".c".toList) (locate .synthetic ".o".toList)).pre = [] ∧
      (substRule (locate .synthetic ".c".toList) (locate .synthetic ".o".toList)).post = ".c".toList ∧
      (substRule (locate .synthetic ".c".toList) (locate .synthetic ".o".toList)).postR = locate .synthetic ".o".toList := by decide
  obtain ⟨e1, e2, e3⟩ := hR
  cases h2 with
  | cons ho hn =>
    cases hn
    cases ho with
    | hit hs =>
      rw [e3] at hb
      simp only [joinSpaces, textOf_append] at hb
      have := congrArg List.getLast? hb
      rw [List.getLast?_append, List.getLast?_append] at this
      revert this
      rw [show (textOf (locate .synthetic ".o".toList)).getLast? = some 'o' by decide]
      simp
    | miss hm =>
      refine hm (locate .synthetic "a.c".toList) ⟨[], (locate .synthetic "a.c.c".toList).drop 3, by decide, ?_, ?_⟩
      · rw [e1]; rfl
      · rw [e2]; decide

/-- A value of two pieces. -/
private def twoPieces (s t : String) : Block := ⟨[], (block s).content ++ (block t).content⟩

private theorem twoPieces_ok {s t : String} (hs : AsciiS s.toList) (hs0 : s.toList ≠ []) (ht : AsciiS t.toList)
    (ht0 : t.toList ≠ []) : Block.WF (twoPieces s t) ∧ (twoPieces s t).Solid ∧
      Block.ltext (twoPieces s t) = locate .synthetic s.toList ++ locate .synthetic t.toList := by
  obtain ⟨a1, a2, a3, _⟩ := block_ok hs hs0
  obtain ⟨b1, b2, b3, _⟩ := block_ok ht ht0
  rw [Block.wf_eq] at a1 b1
  rw [Block.ltext_eq] at a3 b3
  refine ⟨?_, ?_, ?_⟩
  · rw [Block.wf_eq]; exact CRef.wfList_append.mpr ⟨a1, b1⟩
  · intro c hc
    rcases List.mem_append.mp hc with h | h
    · exact a2 c h
    · exact b2 c h
  · rw [Block.ltext_eq, twoPieces, CRef.ltextList_append, a3, b3]

/-- The restriction to words that stay inside the pieces of the value cannot be dropped: the value made of `s/` and
`a.c` (as that of `$(d)a.c`) is turned by `.c=.o` into `s/.o`, without the `a`. -/
theorem C38_pieces_refuted : ¬ ∀ (sens : Sens) (value key replacement : Block), Block.WF value → value.Solid →
    Block.WF key → key.Solid → Block.WF replacement → replacement.Solid →
    ¬ ((substRule (Block.ltext key) (Block.ltext replacement)).pre = [] ∧
      (substRule (Block.ltext key) (Block.ltext replacement)).post = []) →
    (∀ x ∈ Block.ltext value, isWhitespace x.1 = true → x.1 = ' ' ∨ x.1 = '\t') →
    (∀ w ∈ wordsOf (Block.ltext value), (substRule (Block.ltext key) (Block.ltext replacement)).Plain w) →
    ∃ b, doSubref sens value key replacement = .ok b ∧
      (substRule (Block.ltext key) (Block.ltext replacement)).Gives (wordsOf (Block.ltext value)) (Block.ltext b) := by
  intro h
  obtain ⟨v1, v2, v3⟩ := twoPieces_ok (s := "s/") (t := "a.c") (by unfold AsciiS; decide) (by decide)
    (by unfold AsciiS; decide) (by decide)
  obtain ⟨k1, k2, k3, _⟩ := block_ok (s := ".c") (by unfold AsciiS; decide) (by decide)
  obtain ⟨r1, r2, r3, _⟩ := block_ok (s := ".o") (by unfold AsciiS; decide) (by decide)
  have hR : (substRule (Block.ltext (block ".c")) (Block.ltext (block ".o"))).pre = [] ∧
      (substRule (Block.ltext (block ".c")) (Block.ltext (block ".o"))).post = ".c".toList ∧
      (substRule (Block.ltext (block ".c")) (Block.ltext (block ".o"))).preR.length = 0 ∧
      (substRule (Block.ltext (block ".c")) (Block.ltext (block ".o"))).postR.length = 2 := by
    rw [k3, r3]; decide
  obtain ⟨e1, e2, e3, e4⟩ := hR
  have hw : wordsOf (Block.ltext (twoPieces "s/" "a.c")) = [Block.ltext (twoPieces "s/" "a.c")] := by rw [v3]; decide
  obtain ⟨b, h1, outs, h2, h3⟩ := h [] _ _ _ v1 v2 k1 k2 r1 r2 (by rw [e2]; simp) (by rw [v3]; decide)
    (fun w hw => SubstRule.plain_of_count (c := '.') (post := ['c']) e2 (by
      rw [v3] at hw
      revert w
      decide))
  have hb : (doSubref [] (twoPieces "s/" "a.c") (block ".c") (block ".o") >>= fun b => .ok b.text) =
      .ok "s/.o".toList := by decide +kernel
  rw [h1, ok_bind, Res.ok.injEq, Block.text, h3] at hb
  have hb := congrArg List.length hb
  rw [textOf_length] at hb
  rw [hw] at h2
  have hl : (Block.ltext (twoPieces "s/" "a.c")).length = 5 := by rw [v3]; decide
  cases h2 with
  | cons ho hn =>
    cases hn
    cases ho with
    | hit hs =>
      obtain ⟨x, y, f1, f2, f3⟩ := hs
      have f1 := congrArg List.length f1
      rw [e1] at f2
      rw [e2] at f3
      have f2 := congrArg List.length f2
      have f3 := congrArg List.length f3
      rw [textOf_length] at f2 f3
      simp only [joinSpaces, List.length_append, e3, e4, hl] at hb f1
      rw [show ".c".toList.length = 2 by decide] at f3
      rw [List.length_nil] at f2
      rw [show "s/.o".toList.length = 4 by decide] at hb
      omega
    | miss _ => simp [joinSpaces] at hb; omega

/-- What the engine does to any value.  The words are looked at with their positions (`C38_positions`); a word is changed
as described in `C38_words_exact`, except that a stem loses everything from the beginning of the piece of the value in
which the suffix begins, if that is a later one than the piece in which the stem begins. -/
theorem C38_pieces_exact (sens : Sens) (value key replacement : Block) (hv : Block.WF value) (hv' : value.Solid)
    (hk : Block.WF key) (hk' : key.Solid) (hr : Block.WF replacement) (hr' : replacement.Solid) :
    ∃ outs b, doSubref sens value key replacement = .ok b ∧
      List.Forall₂ (fun w out => (substRule (Block.ltext key) (Block.ltext replacement)).DoneAt value.pieceStart w.1 w.2 out)
        (substWordsAt (Block.ltext value)) outs ∧
      Block.ltext b = joinSpaces outs ∧ ∀ v, v ∈ b.sens → v ∈ sens ∨ v ∈ value.sens ∨ v ∈ replacement.sens := by
  obtain ⟨outs, b, b1, b2, b3, _, _, b4⟩ := doSubref_pieces (sens := sens)
    (S := Sens.union (Sens.union sens value.sens) replacement.sens) hv hv' hk hk' hr hr'
    (fun v hv => by simp [Sens.mem_union, hv]) (fun v hv => by simp [Sens.mem_union, hv])
    (fun v hv => by simp [Sens.mem_union, hv])
  refine ⟨outs, b, b2, b1, b3, fun v hv => ?_⟩
  have := b4 v hv
  simpa [Sens.mem_union, or_assoc] using this

/-- The words with positions are the words of the text, and each of them is at its position. -/
theorem C38_positions (t : List LChar) : (substWordsAt t).map Prod.snd = substWords t ∧
    ∀ q ∈ substWordsAt t, (t.drop q.1).take q.2.length = q.2 := by
  unfold substWordsAt substWords
  split
  · exact ⟨rfl, by simp⟩
  · refine ⟨wordsAtFrom_fields 0 [] t, fun q hq => ?_⟩
    simpa using (wordsAtFrom_at 0 [] t (Nat.le_refl _) q hq).2

/-- What is done to a word is determined by the rule, the pieces and the position. -/
theorem C38_pieces_unique (R : SubstRule) (start : Nat → Nat) (p : Nat) (w out out' : List LChar)
    (h : R.DoneAt start p w out) (h' : R.DoneAt start p w out') : out = out' := by
  have same : ∀ {a u b a' u' b' : List LChar}, w = a ++ (u ++ b) → w = a' ++ (u' ++ b') → textOf a = R.pre →
      textOf a' = R.pre → FirstAt R.post (textOf (u ++ b)) u.length → FirstAt R.post (textOf (u' ++ b')) u'.length →
      a = a' ∧ u = u' := by
    intro a u b a' u' b' e e' ea ea' hf hf'
    have hl : a.length = a'.length := by rw [← textOf_length a, ← textOf_length a', ea, ea']
    obtain ⟨rfl, hu⟩ := List.append_inj (e.symm.trans e') hl
    rw [hu] at hf
    have l1 := hf.2
    have l2 := hf'.2
    obtain ⟨x, y, hx, hxl⟩ := hf.1
    obtain ⟨x', y', hx', hxl'⟩ := hf'.1
    have h1 := l1 x' y' hx'
    have h2 := l2 x y hx
    exact ⟨rfl, (List.append_inj hu (by omega)).1⟩
  cases h with
  | hit e ea eb hf hs =>
    cases h' with
    | hit e' ea' eb' hf' hs' =>
      obtain ⟨rfl, rfl⟩ := same e e' ea ea' hf hf'
      rfl
    | cut e' ea' eb' hf' hne hs' =>
      obtain ⟨rfl, rfl⟩ := same e e' ea ea' hf hf'
      have := List.length_pos_iff.mpr hne
      omega
    | miss hm => exact absurd hf (hm _ _ _ e ea eb)
  | cut e ea eb hf hne hs =>
    cases h' with
    | hit e' ea' eb' hf' hs' =>
      obtain ⟨rfl, rfl⟩ := same e e' ea ea' hf hf'
      have := List.length_pos_iff.mpr hne
      omega
    | cut e' ea' eb' hf' hne' hs' =>
      obtain ⟨rfl, hu⟩ := same e e' ea ea' hf hf'
      rw [hu, hs'] at hs
      rw [(List.append_inj hu (by omega)).1]
    | miss hm => exact absurd hf (hm _ _ _ e ea eb)
  | miss hm =>
    cases h' with
    | hit e' ea' eb' hf' hs' => exact absurd hf' (hm _ _ _ e' ea' eb')
    | cut e' ea' eb' hf' hne hs' => exact absurd hf' (hm _ _ _ e' ea' eb')
    | miss _ => rfl

/-- The exact theorem on the value made of `s/` and `a.c`: the `a` is lost. -/
example : ∃ b, doSubref [] (twoPieces "s/" "a.c") (block ".c") (block ".o") = .ok b ∧
    Block.ltext b = locate .synthetic "s/".toList ++ locate .synthetic ".o".toList := by
  obtain ⟨v1, v2, v3⟩ := twoPieces_ok (s := "s/") (t := "a.c") (by unfold AsciiS; decide) (by decide)
    (by unfold AsciiS; decide) (by decide)
  obtain ⟨k1, k2, k3, _⟩ := block_ok (s := ".c") (by unfold AsciiS; decide) (by decide)
  obtain ⟨r1, r2, r3, _⟩ := block_ok (s := ".o") (by unfold AsciiS; decide) (by decide)
  obtain ⟨outs, b, b1, b2, b3, _⟩ := C38_pieces_exact [] _ _ _ v1 v2 k1 k2 r1 r2
  refine ⟨b, b1, ?_⟩
  have hst : ∀ p, (twoPieces "s/" "a.c").pieceStart p = pieceStart [2, 3] p := by
    intro p
    rw [Block.pieceStart_eq v1]
    rfl
  rw [v3, k3, r3, show substWordsAt (locate .synthetic "s/".toList ++ locate .synthetic "a.c".toList) =
    [(0, locate .synthetic "s/".toList ++ locate .synthetic "a.c".toList)] by decide] at b2
  cases b2 with
  | cons d hn =>
    cases hn
    rw [b3]
    refine C38_pieces_unique _ _ _ _ _ _ d ?_
    refine SubstRule.DoneAt.cut (a := []) (stem := locate .synthetic "s/".toList) (lost := locate .synthetic ['a'])
      (b := (locate .synthetic "a.c".toList).drop 1) (by decide) (by decide) (by decide) ?_ (by decide) (by rw [hst]; decide)
    exact firstOcc_some.mp (by decide)

/-- The theorem on a value of two pieces that meet at a space. -/
example : ∃ b, doSubref [] (twoPieces "a.c " "b.c") (block ".c") (block ".o") = .ok b ∧ b.text = "a.o b.o".toList := by
  obtain ⟨v1, v2, v3⟩ := twoPieces_ok (s := "a.c ") (t := "b.c") (by unfold AsciiS; decide) (by decide)
    (by unfold AsciiS; decide) (by decide)
  obtain ⟨k1, k2, k3, _⟩ := block_ok (s := ".c") (by unfold AsciiS; decide) (by decide)
  obtain ⟨r1, r2, r3, _⟩ := block_ok (s := ".o") (by unfold AsciiS; decide) (by decide)
  have e2 : (substRule (Block.ltext (block ".c")) (Block.ltext (block ".o"))).post = ".c".toList := by
    rw [k3, r3]; decide
  have hA : (twoPieces "a.c " "b.c").Apart := by
    intro x c d y e
    have hx : x = [] := by
      have := congrArg List.length e
      simp [twoPieces, block, textBlock] at this
      exact List.length_eq_zero_iff.mp (by omega)
    subst hx
    cases e
    left
    refine ⟨(locate .synthetic "a.c".toList), (' ', .synthetic), ?_, .inl rfl⟩
    have := (block_ok (s := "a.c ") (by unfold AsciiS; decide) (by decide)).2.2.1
    rw [Block.ltext_eq] at this
    rw [show locate .synthetic "a.c".toList ++ [(' ', .synthetic)] = locate .synthetic "a.c ".toList by decide, ← this]
    simp [block, textBlock, CRef.ltextList]
  obtain ⟨b, b1, _⟩ := C38_words_partial [] _ _ _ v1 v2 k1 k2 r1 r2 hA (by rw [e2]; simp)
    (by rw [v3]; decide) (fun w hw => SubstRule.plain_of_count (c := '.') (post := ['c']) e2 (by
      rw [v3] at hw
      revert w
      decide))
  refine ⟨b, b1, ?_⟩
  have e : (doSubref [] (twoPieces "a.c " "b.c") (block ".c") (block ".o") >>= fun b => .ok b.text) =
      .ok "a.o b.o".toList := by decide +kernel
  rw [b1] at e
  exact Res.ok.inj e

/-- The exact theorem on a value with a repeated suffix: the first word is left alone. -/
example : ∃ outs b, doSubref [] (block "a.c.c b.c") (block ".c") (block ".o") = .ok b ∧
    List.Forall₂ (substRule (locate .synthetic ".c".toList) (locate .synthetic ".o".toList)).Done
      [locate .synthetic "a.c.c".toList, locate .synthetic "b.c".toList] outs ∧
    Block.ltext b = joinSpaces outs ∧ outs.head? = some (locate .synthetic "a.c.c".toList) := by
  obtain ⟨v1, v2, v3, v4⟩ := block_ok (s := "a.c.c b.c") (by unfold AsciiS; decide) (by decide)
  obtain ⟨k1, k2, k3, _⟩ := block_ok (s := ".c") (by unfold AsciiS; decide) (by decide)
  obtain ⟨r1, r2, r3, _⟩ := block_ok (s := ".o") (by unfold AsciiS; decide) (by decide)
  obtain ⟨outs, b, b1, b2, b3, _⟩ := C38_words_exact [] _ _ _ v1 v2 k1 k2 r1 r2 (Block.apart_of_single v4)
  rw [v3, k3, r3, show substWords (locate .synthetic "a.c.c b.c".toList) =
    [locate .synthetic "a.c.c".toList, locate .synthetic "b.c".toList] by decide] at b2
  refine ⟨outs, b, b1, b2, b3, ?_⟩
  cases b2 with
  | cons d _ =>
    rw [C38_repeated_suffix _ _ _ [] _ ['a'] ".c".toList d rfl (by decide) (by decide) (by decide)]
    rfl

/-- The keys that match every word are not handled either: `$(x:=.o)` adds the suffix to no word, and `$(x:%=%.o)`
neither. -/
example : substText "a b" "%" "%.o" = .ok "a b".toList := by decide +kernel

/-- The theorem on a value with three words, two of which match. -/
example : ∃ b, doSubref [] (block "a.c  b.h x/d.c ") (block "%.c") (block "o/%.o") = .ok b ∧
    b.text = "o/a.o b.h o/x/d.o".toList := by
  obtain ⟨v1, v2, v3, v4⟩ := block_ok (s := "a.c  b.h x/d.c ") (by unfold AsciiS; decide) (by decide)
  obtain ⟨k1, k2, k3, _⟩ := block_ok (s := "%.c") (by unfold AsciiS; decide) (by decide)
  obtain ⟨r1, r2, r3, _⟩ := block_ok (s := "o/%.o") (by unfold AsciiS; decide) (by decide)
  have hR : (substRule (Block.ltext (block "%.c")) (Block.ltext (block "o/%.o"))).pre = [] ∧
      (substRule (Block.ltext (block "%.c")) (Block.ltext (block "o/%.o"))).post = ".c".toList := by
    rw [k3, r3]; decide
  obtain ⟨b, b1, _⟩ := C38_words_partial [] _ _ _ v1 v2 k1 k2 r1 r2 (Block.apart_of_single v4) (by rw [hR.2]; simp)
    (by rw [v3]; decide) (fun w hw => SubstRule.plain_of_count (c := '.') (post := ['c']) hR.2 (by
      rw [v3] at hw
      revert w
      decide))
  refine ⟨b, b1, ?_⟩
  have e : substText "a.c  b.h x/d.c " "%.c" "o/%.o" = .ok "o/a.o b.h o/x/d.o".toList := by decide +kernel
  rw [substText, b1] at e
  exact Res.ok.inj e

/-- The reference `$(x:.c=.o)` where `x` is `a.c b.h`. -/
example (fs : Fs) : ∃ N, ∀ m, N ≤ m → ∃ b st',
    evalF fs m (.varRef .synthetic (.constant .synthetic ⟨.synthetic, "x:.c=.o".toList⟩))
      (St.init.define ['x'] (.constant .synthetic ⟨.synthetic, "a.c b.h".toList⟩)) = .ok (b, st') ∧
    (substRule ((locate .synthetic "x:.c=.o".toList).drop 2 |>.take 2) ((locate .synthetic "x:.c=.o".toList).drop 5)).Gives
      (wordsOf (locate .synthetic "a.c b.h".toList)) (Block.ltext b) := by
  have hw : (St.init.define ['x'] (.constant .synthetic ⟨.synthetic, "a.c b.h".toList⟩)).WF :=
    (St.init_wf.define (by show AsciiS "a.c b.h".toList; unfold AsciiS; decide)).1
  obtain ⟨t, h1, N, hN⟩ := C38_reference_partial fs .synthetic .synthetic .synthetic
    (.constant .synthetic ⟨.synthetic, "x:.c=.o".toList⟩) _ (locate .synthetic ['x'])
    ((locate .synthetic "x:.c=.o".toList).drop 2 |>.take 2) ((locate .synthetic "x:.c=.o".toList).drop 5)
    (locate .synthetic "a.c b.h".toList) [] [] (by show AsciiS _; unfold AsciiS; decide) hw
    (Expands.text _ (locate .synthetic "x:.c=.o".toList)) (by decide) (by decide) (by decide)
    (.inr ⟨Expr.text (locate .synthetic "a.c b.h".toList), rfl, Expands.text _ _⟩) (onePiece_constant _ _ _ _)
    (fun p hp => by cases hp; exact (onePiece_constant _ _ _ _).wholeWords) (by decide) (by decide)
    (fun w hw => SubstRule.plain_of_count (c := '.') (post := ['c']) (by decide) (by revert w; decide))
  refine ⟨N, fun m hm => ?_⟩
  obtain ⟨b, b1, b2, _⟩ := hN m hm
  exact ⟨b, _, b1, by rw [b2]; exact h1⟩

end Hastur
