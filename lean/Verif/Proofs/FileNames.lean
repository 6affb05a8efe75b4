import Verif.Proofs.Unquote
/-
Lists of file names with backslashes.
-/
namespace Hastur

open Res

variable {P : Block} {t : List LChar} {i : Span} {stop : Char → Bool} {last : List LChar → List LChar}

theorem unquote_rest {run rest : List LChar} {x : LChar} (h : (unquote stop run t).2 = some (x, rest)) :
    stop x.1 = true ∧ ∃ a, t = a ++ x :: rest := by
  induction t generalizing run with
  | nil => cases h
  | cons y t ih =>
    simp only [unquote] at h
    split at h
    · obtain ⟨h1, a, rfl⟩ := ih h
      exact ⟨h1, y :: a, rfl⟩
    · split at h
      · split at h
        · obtain ⟨h1, a, rfl⟩ := ih h
          exact ⟨h1, y :: a, rfl⟩
        · simp only [Option.some.injEq, Prod.mk.injEq] at h
          obtain ⟨rfl, rfl⟩ := h
          exact ⟨by assumption, [], rfl⟩
      · obtain ⟨h1, a, rfl⟩ := ih h
        exact ⟨h1, y :: a, rfl⟩

theorem NamesIn.unique {ns ns' : List (List LChar)} (h : NamesIn stop last t ns) (h' : NamesIn stop last t ns') :
    ns = ns' := by
  induction h generalizing ns' with
  | next h1 _ ih =>
    cases h' with
    | next h2 h3 =>
      rw [h1] at h2
      cases h2
      rw [ih h3]
    | rest h2 => rw [h1] at h2; cases h2
  | rest h1 =>
    cases h' with
    | next h2 h3 => rw [h1] at h2; cases h2
    | rest _ => rfl

theorem NamesIn.ne_nil {ns : List (List LChar)} (h : NamesIn stop last t ns) : ∀ w ∈ ns, w ≠ [] := by
  induction h with
  | next _ _ ih =>
    intro w hw
    rcases List.mem_append.mp hw with hw | hw
    · simpa using (List.mem_filter.mp hw).2
    · exact ih w hw
  | rest _ =>
    intro w hw
    simpa using (List.mem_filter.mp hw).2

theorem NamesIn.congr {last' : List LChar → List LChar} {ns : List (List LChar)} (h : NamesIn stop last t ns)
    (he : ∀ a s, t = a ++ s → last s = last' s) : NamesIn stop last' t ns := by
  induction h with
  | @next t rest x ns h1 _ ih =>
    obtain ⟨_, a, e⟩ := unquote_rest h1
    refine .next h1 (ih fun b s hs => he (a ++ x :: b) s ?_)
    rw [e, hs]; simp
  | @rest t h1 =>
    rw [he [] t rfl]
    exact .rest h1

theorem trailing_suffix {a s : List LChar} (h : trailingSlashes (textOf (a ++ s)) = 0) :
    trailingSlashes (textOf s) = 0 := by
  unfold trailingSlashes textOf at *
  rw [List.length_eq_zero_iff] at *
  rw [List.map_append, List.reverse_append] at h
  cases hs : (s.map Prod.fst).reverse with
  | nil => rfl
  | cons c l =>
    rw [hs, List.cons_append, List.takeWhile_cons] at h
    rw [List.takeWhile_cons]
    split at h
    · cases h
    · rename_i hc
      rw [if_neg hc]

theorem lastName_of_even (h : trailingSlashes (textOf t) = 0) : lastName stop t = (unquote stop [] t).1 := by
  unfold lastName
  rw [h]
  simp

theorem filter_word (w : List LChar) : [w].filter (· ≠ []) = if w = [] then [] else [w] := by
  by_cases h : w = [] <;> simp [h]

theorem fileSeqLoop_names (extraStop : Str) (hx : extraStop.contains '\\' = false) (n : Nat) (out : List Block)
    (h : i.At P t) (hn : t.length < n) :
    ∃ bs ns, fileSeqLoop extraStop n i out = .ok (out ++ bs) ∧
      NamesIn (fileSep extraStop) (lastName (fileSep extraStop)) t ns ∧ Blocks P ns bs := by
  induction n generalizing i t out with
  | zero => omega
  | succ n ih =>
    have hsl : fileSep extraStop '\\' = false := by
      simp only [fileSep, hx]; decide
    have hs0 : fileSep extraStop (Char.ofNat 0) = true := by
      simp [fileSep]
    simp only [fileSeqLoop, h.length]
    by_cases hne : t = []
    · subst hne
      exact ⟨[], _, by simp, .rest rfl, .nil⟩
    · have hpos := List.length_pos_iff.mpr hne
      rw [if_pos hpos]
      -- one name and the rest of the list
      have step : ∀ (w : List LChar) (b : Block) (post : Span) (rest : List LChar), Part P w b → post.At P rest →
          rest.length < n → ∃ bs ns, (if b.len > 0 then do
              let f ← b.span.toNewBlock
              fileSeqLoop extraStop n post (out ++ [f])
            else fileSeqLoop extraStop n post out) = .ok (out ++ bs) ∧
            NamesIn (fileSep extraStop) (lastName (fileSep extraStop)) rest ns ∧
            Blocks P ([w].filter (· ≠ []) ++ ns) bs := by
        intro w b post rest e2 e3 hlen
        rw [filter_word]
        by_cases hb : w = []
        · rw [if_neg (by rw [e2.len, hb]; simp)]
          obtain ⟨bs, ns, f1, f2, f3⟩ := ih out e3 hlen
          exact ⟨bs, ns, f1, f2, by rw [if_pos hb]; exact f3⟩
        · rw [if_pos (by rw [e2.len]; exact List.length_pos_iff.mpr hb)]
          obtain ⟨c, c1, c2⟩ := e2.at.part
          rw [c1, Res.ok_bind]
          obtain ⟨bs, ns, f1, f2, f3⟩ := ih (out ++ [c]) e3 hlen
          refine ⟨c :: bs, ns, by rw [f1]; simp, f2, ?_⟩
          rw [if_neg hb]
          refine List.Forall₂.cons ?_ f3
          exact ⟨c2.ltext, c2.wf, c2.solid, fun v hv => e2.sens v (c2.sens v hv),
            fun hne v hv => c2.sens_all hne v (e2.sens_all hne v hv), fun m => c2.mono (e2.mono m)⟩
      obtain ⟨k1, k2⟩ := takeUntilUnquote_end (fileSep extraStop) hsl hs0 h hne
      cases hu : (unquote (fileSep extraStop) [] t).2 with
      | some y =>
        obtain ⟨x, rest⟩ := y
        obtain ⟨b, sc, post, e1, e2, _, e3⟩ := k1 x rest hu
        obtain ⟨_, a, ha⟩ := unquote_rest hu
        obtain ⟨bs, ns, f1, f2, f3⟩ := step _ b post rest e2 e3 (by rw [ha] at hn; simp at hn; omega)
        unfold fileSep at e1
        rw [e1, Res.ok_bind]
        exact ⟨bs, _, f1, .next hu f2, f3⟩
      | none =>
        rcases Nat.mod_two_eq_zero_or_one (trailingSlashes (textOf t)) with hm | hm
        · obtain ⟨b, sc, post, e1, e2, e3⟩ := (k2 hu).1 hm
          obtain ⟨bs, ns, f1, f2, f3⟩ := step _ b post [] e2 e3 (by simp; omega)
          have : ns = [] := f2.unique (.rest rfl)
          subst this
          rw [List.append_nil] at f3
          unfold fileSep at e1
          rw [e1, Res.ok_bind]
          exact ⟨bs, _, f1, .rest hu, f3⟩
        · obtain ⟨b, e1, e2⟩ := (k2 hu).2 hm
          obtain ⟨q, q1, q2⟩ := h.sliceFrom (n := t.length) (Nat.le_refl _)
          rw [List.drop_length] at q2
          obtain ⟨bs, ns, f1, f2, f3⟩ := step _ b q [] e2 q2 (by simp; omega)
          have : ns = [] := f2.unique (.rest rfl)
          subst this
          rw [List.append_nil] at f3
          unfold fileSep at e1
          rw [e1, Res.ok_bind]
          simp only [q1, Res.ok_bind]
          exact ⟨bs, _, f1, .rest hu, f3⟩

theorem NamesIn.blanks {w : List LChar} (hw : ∀ x ∈ w, x.1 ≠ '\\' ∧ stop x.1 = true) {ns : List (List LChar)}
    (h : NamesIn stop last t ns) : NamesIn stop last (w ++ t) ns := by
  induction w with
  | nil => exact h
  | cons x w ih =>
    obtain ⟨h1, h2⟩ := hw x (by simp)
    have he : unquote stop [] (x :: (w ++ t)) = ([], some (x, w ++ t)) := by
      simp [unquote, h1, h2]
    have := NamesIn.next (last := last) (t := x :: (w ++ t)) (by rw [he]) (ih fun y hy => hw y (by simp [hy]))
    rw [he] at this
    simpa using this

theorem parseFileSeq_escaped (extraStop : Str) (hx : extraStop.contains '\\' = false) (h : i.At P t) :
    ∃ bs ns, parseFileSeq extraStop i = .ok bs ∧
      NamesIn (fileSep extraStop) (lastName (fileSep extraStop)) t ns ∧ Blocks P ns bs := by
  obtain ⟨r, w, e1, e2, _⟩ := whitespace_at h
  obtain ⟨bs, ns, f1, f2, f3⟩ := fileSeqLoop_names extraStop hx ((t.dropWhile lblank).length + 1) [] e2 (Nat.lt_succ_self _)
  refine ⟨bs, ns, ?_, ?_, f3⟩
  · unfold parseFileSeq
    rw [e1, Res.ok_bind]
    simp only [e2.length, f1, List.nil_append]
  · have := NamesIn.blanks (w := t.takeWhile lblank) (by
      intro x hx
      have := List.mem_takeWhile_imp hx
      rw [lblank_iff] at this
      rcases this with e | e <;> simp [e, fileSep, isWhitespace]) f2
    rwa [List.takeWhile_append_dropWhile] at this

theorem unquote_slashes {s : List LChar} (hs : ∀ x ∈ s, x.1 = '\\') (r : List LChar) :
    unquote stop r (s ++ t) = unquote stop (r ++ s) t := by
  induction s generalizing r with
  | nil => simp
  | cons x s ih =>
    rw [List.cons_append, unquote, if_pos (hs x (by simp)), ih (fun y hy => hs y (by simp [hy]))]
    simp

/-- A name written with escapes, then a stop character, is read back. -/
theorem unquote_escape {w run : List LChar} {sep : LChar} (hsep : sep.1 ≠ '\\') (hst : stop sep.1 = true)
    (hr : ∀ x ∈ run, x.1 = '\\') :
    unquote stop [] (escapeName stop run w ++ sep :: t) = (run ++ w, some (sep, t)) := by
  induction w generalizing run with
  | nil =>
    rw [escapeName, unquote_slashes (by simpa using hr), List.nil_append, unquote, if_neg hsep, if_pos hst,
      if_neg (by simp; omega)]
    have : (run ++ run).length / 2 = run.length := by simp; omega
    rw [this]
    simp
  | cons x w ih =>
    rw [escapeName]
    split
    · rename_i hx
      rw [ih (by
        intro y hy
        rcases List.mem_append.mp hy with hy | hy
        · exact hr y hy
        · rw [List.mem_singleton.mp hy]; exact hx)]
      simp
    · rename_i hx
      have ih := ih (run := []) (by simp)
      split
      · rename_i hsx
        have e : run ++ run ++ ('\\', x.2) :: x :: escapeName stop [] w ++ sep :: t =
            (run ++ run ++ [('\\', x.2)]) ++ (x :: (escapeName stop [] w ++ sep :: t)) := by simp
        rw [e, unquote_slashes (by
          intro y hy
          simp only [List.mem_append, List.mem_singleton, or_self] at hy
          rcases hy with hy | rfl
          · exact hr y hy
          · rfl), List.nil_append, unquote, if_neg hx, if_pos hsx, if_pos (by simp; omega), ih]
        have : (run ++ run ++ [('\\', x.2)]).length / 2 = run.length := by simp; omega
        rw [this]
        simp
      · rename_i hsx
        rw [List.append_assoc, unquote_slashes hr, List.nil_append, List.cons_append, unquote, if_neg hx, if_neg hsx, ih]
        simp

/-- A list of names, each written with escapes and followed by a stop character, is read back. -/
theorem NamesIn.escaped (h0 : last [] = []) {ws : List (List LChar × LChar)}
    (hs : ∀ p ∈ ws, p.1 ≠ [] ∧ p.2.1 ≠ '\\' ∧ stop p.2.1 = true) :
    NamesIn stop last (ws.flatMap fun p => escapeName stop [] p.1 ++ [p.2]) (ws.map Prod.fst) := by
  induction ws with
  | nil =>
    have := NamesIn.rest (stop := stop) (last := last) (t := []) rfl
    rw [h0] at this
    simpa using this
  | cons p ws ih =>
    obtain ⟨h1, h2, h3⟩ := hs p (by simp)
    have ih := ih fun q hq => hs q (by simp [hq])
    have he := unquote_escape (stop := stop) (w := p.1) (run := []) (sep := p.2)
      (t := ws.flatMap fun p => escapeName stop [] p.1 ++ [p.2]) h2 h3 (by simp)
    have := NamesIn.next (last := last) (t := escapeName stop [] p.1 ++ p.2 ::
      (ws.flatMap fun p => escapeName stop [] p.1 ++ [p.2])) (by rw [he]) ih
    rw [he] at this
    simpa [h1] using this

end Hastur
