import Verif.Proofs.KeepRun
import Verif.Proofs.Segments
import Verif.Proofs.Names
import Verif.Spec.Eval
/-
The worlds of makefiles: every character stands in its file or is a separator.
-/
namespace Hastur

open Res

/-! ### ASCII worlds are well-formed -/

variable {W : World}

theorem locate_fst_ascii {l : Location} {s : Str} (h : ∀ x ∈ locate l s, isAscii x.1 = true) : AsciiS s := by
  intro c hc
  rw [← locate_fst l s] at hc
  obtain ⟨x, hx, rfl⟩ := List.mem_map.mp hc
  exact h x hx

mutual
theorem Node.In.wf (ha : ∀ x, W.letter x → isAscii x.1 = true) : ∀ n : Node, Node.In W n → Node.WF n
  | .constant _, h => locate_fst_ascii fun x hx => ha x (h x hx)
  | .concat v, h => Block.In.wf ha v h
  | .varRef _ v, h => Block.In.wf ha v h.2
  | .subRef _ _ _ v, h => Block.In.wf ha v h.2.2.2
  | .evaluated v, h => Block.In.wf ha v h
theorem Block.In.wf (ha : ∀ x, W.letter x → isAscii x.1 = true) : ∀ b : BlockOf Node, Block.In W b → Block.WF b
  | ⟨_, c⟩, h => CRef.InList.wf ha c h.2
theorem CRef.InList.wf (ha : ∀ x, W.letter x → isAscii x.1 = true) :
    ∀ cs : List (CRefOf Node), CRef.InList W cs → CRef.WFList cs
  | [], _ => trivial
  | c :: cs, h => ⟨CRef.In.wf ha c h.1, CRef.InList.wf ha cs h.2⟩
theorem CRef.In.wf (ha : ∀ x, W.letter x → isAscii x.1 = true) : ∀ c : CRefOf Node, CRef.In W c → CRef.WF c
  | ⟨_, _, n⟩, h => ⟨h.1, Node.In.wf ha n h.2⟩
end

mutual
theorem Ast.In.wf (ha : ∀ x, W.letter x → isAscii x.1 = true) : ∀ a : Ast, Ast.In W a → Ast.WF a
  | .empty _, _ => trivial
  | .constant _ _, h => locate_fst_ascii fun x hx => ha x (h.2.2 x hx)
  | .preEvaluated _ b, h => Block.In.wf ha b h.2
  | .concat _ cs, h => Ast.InList.wf ha cs h.2
  | .varRef _ n, h => Ast.In.wf ha n h.2
  | .eval _ a, h => Ast.In.wf ha a h.2
  | .strip _ a, h => Ast.In.wf ha a h.2
  | .word _ i w, h => ⟨Ast.In.wf ha i h.2.1, Ast.In.wf ha w h.2.2⟩
  | .words _ a, h => Ast.In.wf ha a h.2
theorem Ast.InList.wf (ha : ∀ x, W.letter x → isAscii x.1 = true) : ∀ as : List Ast, Ast.InList W as → Ast.WFList as
  | [], _ => trivial
  | a :: as, h => ⟨Ast.In.wf ha a h.1, Ast.InList.wf ha as h.2⟩
end

/-! ### A dollar sign that is found is one -/

theorem revalLoop_ok {cs : List CRef} {start offset a o : Nat} (e : Span.revalLoop cs start offset = .ok (a, o)) :
    ∃ k c rest, a = start + k ∧ cs.drop k = c :: rest ∧ o < c.length := by
  induction cs generalizing start offset with
  | nil => cases e
  | cons c cs ih =>
    simp only [Span.revalLoop] at e
    split at e
    · obtain ⟨k, d, rest, rfl, h2, h3⟩ := ih e
      exact ⟨k + 1, d, rest, by omega, by simpa using h2, h3⟩
    · cases e
      exact ⟨0, c, cs, rfl, rfl, by omega⟩

theorem Span.revalidate_ok {s r : Span} (e : s.revalidate = .ok r) (h0 : r.length ≠ 0) :
    r.parent = s.parent ∧ ∃ c rest, r.contents = c :: rest ∧ r.offset < c.length := by
  unfold Span.revalidate at e
  split at e
  · cases e; exact absurd ‹_› h0
  · obtain ⟨⟨a, o⟩, e1, e⟩ := bind_eq_ok.mp e
    cases e
    obtain ⟨k, c, rest, rfl, h2, h3⟩ := revalLoop_ok e1
    refine ⟨rfl, c, rest, ?_, h3⟩
    simp only [Span.contents] at h2 ⊢
    rw [← h2, List.drop_drop]

theorem limitBytes_one {items : List Char} {crash : Bool} {c : Char} {cs : List Char}
    (h : (limitBytes 1 items crash).items = c :: cs) : c.utf8Size ≤ 1 ∧ ∃ more, items = c :: more := by
  cases items with
  | nil => simp [limitBytes] at h
  | cons d ds =>
    simp only [limitBytes] at h
    split at h
    · rename_i hu
      simp only [List.cons.injEq] at h
      obtain ⟨rfl, _⟩ := h
      exact ⟨by omega, ds, rfl⟩
    · simp at h

theorem limitBytes_head {n : Nat} {c : Char} {cs : List Char} {crash : Bool} (h0 : n ≠ 0) (h : c.utf8Size ≤ 1) :
    ∃ more, (limitBytes n (c :: cs) crash).items = c :: more := by
  obtain ⟨n, rfl⟩ : ∃ k, n = k + 1 := ⟨n - 1, by omega⟩
  simp only [limitBytes]
  rw [if_pos (by omega)]
  exact ⟨_, rfl⟩

/-- In ASCII text the location of a dollar sign that was found is that of a dollar sign. -/
theorem dollar_ascii (ha : ∀ x, W.letter x → isAscii x.1 = true) {s r q r' d : Span} {loc : Location} (hs : s.In W)
    (e1 : Nom.takeUntil ['$'] s = .ok (.done r q)) (e2 : Nom.tag ['$'] r = .ok (.done r' d))
    (e3 : d.location = .ok (some loc)) : W.letter ('$', loc) := by
  have hd_in : d.In W := by
    have h1 := Nom.takeUntil_in hs ['$'] _ e1
    exact (Nom.tag_in h1.1 ['$'] _ e2).2
  -- the dollar sign
  unfold Nom.tag at e2
  obtain ⟨m, em, e2⟩ := bind_eq_ok.mp e2
  obtain ⟨rfl⟩ : m = .ok := by
    cases m with
    | ok => rfl
    | incomplete => cases e2
    | error => cases e2
  dsimp only at e2
  obtain ⟨⟨x, y⟩, et, e2⟩ := bind_eq_ok.mp e2
  cases e2
  unfold Span.takeSplit at et
  obtain ⟨⟨⟩, ea, et⟩ := bind_eq_ok.mp et
  obtain ⟨a, _, et⟩ := bind_eq_ok.mp et
  cases et
  have hlen : 1 ≤ r.length := by
    unfold rassert at ea
    split at ea
    · rename_i h
      have h : blen ['$'] ≤ r.length := of_decide_eq_true h
      exact h
    · cases ea
  -- where the search stopped
  unfold Nom.takeUntil at e1
  obtain ⟨o, _, e1⟩ := bind_eq_ok.mp e1
  cases o with
  | none => cases e1
  | some idx =>
    dsimp only at e1
    obtain ⟨⟨x, y⟩, et', e1⟩ := bind_eq_ok.mp e1
    have hx : x = r := by cases e1; rfl
    clear e1
    unfold Span.takeSplit at et'
    obtain ⟨⟨⟩, _, et'⟩ := bind_eq_ok.mp et'
    obtain ⟨a, es, et'⟩ := bind_eq_ok.mp et'
    have ha' : a = x := by cases et'; rfl
    clear et'
    rw [ha', hx] at es
    unfold Span.sliceFrom at es
    obtain ⟨l, _, es⟩ := bind_eq_ok.mp es
    obtain ⟨hp, c, rest, hc, ho⟩ := Span.revalidate_ok es (by omega)
    have hwf : Block.WF r.parent := by rw [hp]; exact Block.In.wf ha _ hs
    have hb1 : blen ['$'] = 1 := by decide
    rw [hb1] at e3 hd_in
    have hdw : (r.sliceTo 1).WF := by
      refine ⟨hwf, Or.inr ⟨c, rest, hc, ?_, ?_⟩⟩
      · show r.offset ≤ c.length
        omega
      · show r.offset + 1 ≤ c.length + lensum rest
        omega
    have hchars := Span.chars_eq hdw
    have hlen1 : (r.sliceTo 1).ltext.length = 1 := by
      have := Span.text_length hdw
      simpa [Span.text, textOf, Span.sliceTo] using this
    obtain ⟨x, hx⟩ := List.length_eq_one_iff.mp hlen1
    have hdol : x.1 = '$' := by
      have h1 : (r.sliceTo 1).chars.items = x.1 :: [] := by rw [hchars]; simp [Span.text, textOf, hx]
      have hcc : (r.sliceTo 1).contents = c :: rest := hc
      have h2 : (limitBytes 1 (((CRef.chars c).skip r.offset).append (CRef.charsList rest)).items
          (((CRef.chars c).skip r.offset).append (CRef.charsList rest)).crash).items = x.1 :: [] := by
        rw [← h1]
        unfold Span.chars
        rw [hcc]
        rfl
      obtain ⟨h3, more, h4⟩ := limitBytes_one h2
      have h5 : ∃ more, r.chars.items = x.1 :: more := by
        unfold Span.chars
        rw [hc]
        dsimp only
        rw [h4]
        exact limitBytes_head (by omega) h3
      obtain ⟨more', h5⟩ := h5
      unfold Span.compare at em
      obtain ⟨b, eb, em⟩ := bind_eq_ok.mp em
      rw [h5] at eb
      simp only [Span.mismatch] at eb
      split at eb
      · cases eb; cases em
      · rename_i h; simpa using h
    -- and its location
    unfold Span.location at e3
    obtain ⟨t, ef, e3⟩ := bind_eq_ok.mp e3
    have e3 : t.map (·.loc) = some loc := Res.ok.inj e3
    obtain ⟨t, rfl, rfl⟩ := Option.map_eq_some_iff.mp e3
    obtain ⟨h1, h2, h3, _⟩ := Span.segments_of (s := r.sliceTo 1) hwf
    unfold Span.firstSegment at ef
    split at ef
    · rename_i t' ts cr hseg
      cases ef
      rw [hseg] at h2 h3
      have hne := h2 t (List.mem_cons_self ..)
      rw [segsText_cons] at h3
      have hmem := (Span.segments_in hd_in) t (by rw [hseg]; exact List.mem_cons_self ..)
      obtain ⟨tl, tc⟩ := t
      cases tc with
      | nil => exact absurd rfl hne
      | cons ch more =>
        have hh : (ch, tl) ∈ LStr.ltext ⟨tl, ch :: more⟩ := by simp [LStr.ltext, locate]
        have : (ch, tl) ∈ (r.sliceTo 1).ltext := h3.subset (List.mem_append_left _ hh)
        rw [hx] at this
        have : (ch, tl) = x := by simpa using this
        subst this
        subst hdol
        exact hmem.2 _ hh
    · cases ef
    · cases ef

/-! ### The characters of a makefile -/

theorem takeWhile_all {α : Type} {p : α → Bool} {l : List α} (h : ∀ a ∈ l, p a = true) : l.takeWhile p = l := by
  induction l with
  | nil => rfl
  | cons a l ih =>
    rw [List.takeWhile_cons, if_pos (h a (List.mem_cons_self ..)), ih fun b hb => h b (List.mem_cons_of_mem _ hb)]

theorem mem_locate_split {l : Location} {text : Str} : ∀ x ∈ locate l text,
    ∃ before after, text = before ++ x.1 :: after ∧ x.2 = l.after before := by
  induction text generalizing l with
  | nil => intro x hx; cases hx
  | cons c t ih =>
    have hl : locate l (c :: t) = (c, l) :: locate (l.after [c]) t := by
      rw [show c :: t = [c] ++ t from rfl, locate_append]
      rfl
    intro x hx
    rw [hl] at hx
    rcases List.mem_cons.mp hx with rfl | hx
    · refine ⟨[], t, rfl, ?_⟩
      cases l <;> simp [Location.after, lineAfter, columnAfter]
    · obtain ⟨before, after, h1, h2⟩ := ih x hx
      refine ⟨c :: before, after, by rw [h1]; rfl, ?_⟩
      rw [h2, ← Location.after_append]
      rfl

theorem standsAt_locate {text : Str} {f : FileName} : ∀ x ∈ locate (.source 1 1 f) text,
    ∃ line column, x.2 = .source line column f ∧ StandsAt text line column x.1 := by
  intro x hx
  obtain ⟨before, after, h1, h2⟩ := mem_locate_split x hx
  refine ⟨_, _, h2, before, after, h1, rfl, ?_⟩
  unfold columnAfter
  split
  · rfl
  · rename_i h
    rw [takeWhile_all, List.length_reverse]
    intro c hc
    have : c ≠ '\n' := by rintro rfl; exact h (by simpa using hc)
    simpa using this

/-! ### The worlds -/

theorem ComesFrom.mono {fs : Fs} {n n' : NameCache} (h : ∀ f s, n.resolveFile f = some s → n'.resolveFile f = some s) {x : LChar}
    (hx : ComesFrom fs n x) : ComesFrom fs n' x := by
  cases hx with
  | file h1 h2 h3 => exact .file (h _ _ h1) h2 h3
  | separator h => exact .separator h

theorem NearlyFrom.mono {fs : Fs} {n n' : NameCache} (h : ∀ f s, n.resolveFile f = some s → n'.resolveFile f = some s)
    {x : LChar} (hx : NearlyFrom fs n x) : NearlyFrom fs n' x :=
  hx.imp (·.mono h) fun ⟨h1, h2⟩ => ⟨h1, h2.imp id fun ⟨c, hc⟩ => ⟨c, hc.mono h⟩⟩

/-- A family of worlds with the handles that resolve, and characters that grow with the names. -/
theorem worlds_of {fs : Fs} {letter : NameCache → LChar → Prop} (hc : ∀ n x, ComesFrom fs n x → letter n x)
    (hm : ∀ n n' : NameCache, (∀ f s, n.resolveFile f = some s → n'.resolveFile f = some s) →
      ∀ x, letter n x → letter n' x)
    (hd : ∀ n {s r q r' d : Span} {loc : Location}, s.In (n.world (letter n)) →
      Nom.takeUntil ['$'] s = .ok (.done r q) → Nom.tag ['$'] r = .ok (.done r' d) → d.location = .ok (some loc) →
      letter n ('$', loc)) :
    Worlds fs fun n => n.world (letter n) where
  closed n := ⟨hc n _ (.separator (Or.inl rfl)), hc n _ (.separator (Or.inr (Or.inl rfl))),
    hc n _ (.separator (Or.inr (Or.inr rfl))), hd n⟩
  var n s := by
    have hf : ∀ f t, n.resolveFile f = some t → (n.internVar s).2.resolveFile f = some t :=
      fun f t h => n.resolveFile_run (.var s) f t h
    have hv : ∀ f t, n.resolveVar f = some t → (n.internVar s).2.resolveVar f = some t :=
      fun f t h => n.resolveVar_run (.var s) f t h
    exact ⟨⟨fun x => hm _ _ hf x, fun v ⟨t, h⟩ => ⟨t, hv v t h⟩, fun v ⟨t, h⟩ => ⟨t, hf v t h⟩⟩,
      _, NameCache.resolveVar_internVar n s⟩
  file n s := by
    have hf : ∀ f t, n.resolveFile f = some t → (n.internFile s).2.resolveFile f = some t :=
      fun f t h => n.resolveFile_run (.file s) f t h
    have hv : ∀ f t, n.resolveVar f = some t → (n.internFile s).2.resolveVar f = some t :=
      fun f t h => n.resolveVar_run (.file s) f t h
    exact ⟨⟨fun x => hm _ _ hf x, fun v ⟨t, h⟩ => ⟨t, hv v t h⟩, fun v ⟨t, h⟩ => ⟨t, hf v t h⟩⟩,
      _, NameCache.resolveFile_internFile n s⟩
  text n name s h x hx := by
    obtain ⟨line, column, h1, h2⟩ := standsAt_locate x hx
    obtain ⟨c, l⟩ := x
    cases h1
    exact hc _ _ (.file (NameCache.resolveFile_internFile n name) h h2)

/-- For all makefiles. -/
theorem worlds_any (fs : Fs) : Worlds fs fun n => n.world (NearlyFrom fs n) := by
  refine worlds_of (fun _ _ h => Or.inl h) (fun _ _ h _ hx => hx.mono h) fun n s r q r' d loc hs e1 e2 e3 => ?_
  have h1 := Nom.takeUntil_in hs ['$'] _ e1
  have h2 := (Nom.tag_in h1.1 ['$'] _ e2).2
  refine Or.inr ⟨rfl, ?_⟩
  rcases Span.location_in h2 _ e3 loc rfl with h | ⟨c, h | ⟨-, h⟩⟩
  · exact Or.inl h
  · exact Or.inr ⟨c, h⟩
  · exact h

theorem ComesFrom.ascii {fs : Fs} (hfs : ∀ name s, fs name = .text s → AsciiS s) {n : NameCache} {x : LChar}
    (h : ComesFrom fs n x) : isAscii x.1 = true := by
  cases h with
  | file h1 h2 h3 =>
    obtain ⟨before, after, rfl, _⟩ := h3
    exact hfs _ _ h2 _ (by simp)
  | separator h => rcases h with rfl | rfl | rfl <;> decide

/-- For ASCII makefiles. -/
theorem worlds_ascii {fs : Fs} (hfs : ∀ name s, fs name = .text s → AsciiS s) :
    Worlds fs fun n => n.world (ComesFrom fs n) :=
  worlds_of (fun _ _ h => h) (fun _ _ h _ hx => hx.mono h) fun _ _ _ _ _ _ _ hs e1 e2 e3 =>
    dollar_ascii (fun _ h => ComesFrom.ascii hfs h) hs e1 e2 e3

/-! ### The characters that are iterated over -/

theorem mem_limitBytes {n : Nat} {items : List Char} {crash : Bool} {c : Char} (h : c ∈ (limitBytes n items crash).items) :
    c ∈ items := by
  induction items generalizing n with
  | nil => cases n <;> simp [limitBytes] at h
  | cons d ds ih =>
    cases n with
    | zero => simp [limitBytes] at h
    | succ n =>
      simp only [limitBytes] at h
      split at h
      · rcases List.mem_cons.mp h with rfl | h
        · exact List.mem_cons_self ..
        · exact List.mem_cons_of_mem _ (ih h)
      · simp at h

theorem mem_append_items {a b : CStream} {c : Char} (h : c ∈ (a.append b).items) : c ∈ a.items ∨ c ∈ b.items := by
  unfold CStream.append at h
  split at h
  · exact Or.inl h
  · simpa using h

theorem mem_refChars {o l : Nat} {s : CStream} {c : Char} (h : c ∈ (refChars o l s).items) : c ∈ s.items := by
  unfold refChars CStream.take CStream.skip at h
  split at h
  · exact List.mem_of_mem_drop (List.mem_of_mem_take h)
  · exact List.mem_of_mem_drop h

mutual
theorem Node.In.chars : ∀ n : Node, Node.In W n → ∀ c ∈ (Node.chars n).items, ∃ l, W.letter (c, l)
  | .constant s, h, c, hc => by
    have hc : c ∈ s.contents := hc
    rw [← locate_fst s.loc s.contents] at hc
    obtain ⟨x, hx, rfl⟩ := List.mem_map.mp hc
    exact ⟨x.2, h x hx⟩
  | .concat v, h, c, hc => Block.In.chars v h c hc
  | .varRef _ v, h, c, hc => Block.In.chars v h.2 c hc
  | .subRef _ _ _ v, h, c, hc => Block.In.chars v h.2.2.2 c hc
  | .evaluated v, h, c, hc => Block.In.chars v h c hc
theorem Block.In.chars : ∀ b : BlockOf Node, Block.In W b → ∀ c ∈ (Block.chars b).items, ∃ l, W.letter (c, l)
  | ⟨_, cs⟩, h, c, hc => CRef.InList.chars cs h.2 c (mem_limitBytes hc)
theorem CRef.InList.chars : ∀ cs : List (CRefOf Node), CRef.InList W cs → ∀ c ∈ (CRef.charsList cs).items,
    ∃ l, W.letter (c, l)
  | [], _, c, hc => nomatch hc
  | r :: cs, h, c, hc => (mem_append_items hc).elim (CRef.In.chars r h.1 c) (CRef.InList.chars cs h.2 c)
theorem CRef.In.chars : ∀ r : CRefOf Node, CRef.In W r → ∀ c ∈ (CRef.chars r).items, ∃ l, W.letter (c, l)
  | ⟨_, _, n⟩, h, c, hc => Node.In.chars n h.2 c (mem_refChars hc)
end

theorem Block.In.intoString {b : Block} (h : Block.In W b) {s : Str} (e : b.intoString = .ok s) :
    ∀ c ∈ s, ∃ l, W.letter (c, l) := by
  unfold Block.intoString CStream.all at e
  split at e
  · cases e
  · cases e
    exact CRef.InList.chars _ ((Block.in_iff).mp h).2

/-! ### Invariants of reached states -/

theorem Reachable.keeps {I : St → Prop} (hI : EngineInv I) (h0 : I St.init) {fs : Fs} {st : St} (h : Reachable fs st) : I st := by
  induction h with
  | init => exact h0
  | read _ e ih => exact readF_keeps hI ih e
  | expand _ e ih =>
    unfold expandF at e
    split at e
    · cases e; exact ih
    · obtain ⟨⟨b, st1⟩, e1, e⟩ := bind_eq_ok.mp e
      obtain ⟨s, e2, e⟩ := bind_eq_ok.mp e
      cases e
      exact evalF_keeps hI ih e1

theorem Reachable.nodup {fs : Fs} {st : St} (h : Reachable fs st) : st.names.Nodup := by
  obtain ⟨cs, hc⟩ := h.keeps (namesGrow_inv NameCache.empty) ⟨[], rfl⟩
  rw [hc]
  exact NameCache.nodup_after _ _ NameCache.nodup_empty

/-- Read one makefile and check the state. -/
def checkRead (fs : Fs) (n : Nat) (name : Str) (p : St → Bool) : Bool :=
  match readF fs n (fs name) name St.init with
  | .ok (_, st) => p st
  | _ => false

theorem reached_check {fs : Fs} {n : Nat} {name : Str} {p : St → Bool} (h : checkRead fs n name p = true) :
    ∃ st, Reachable fs st ∧ p st = true := by
  unfold checkRead at h
  split at h
  · exact ⟨_, .read .init ‹_›, h⟩
  · cases h

end Hastur
