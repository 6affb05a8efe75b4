import Verif.Proofs.FileNames
import Verif.Model.FileSeq
/-
`parse_file_seq` with options.
-/
namespace Hastur

open Res

variable {P : Block} {t : List LChar} {i : Span}

/-- What `clean_match` makes of a name. -/
def FileSeqOptions.cleaned (o : FileSeqOptions) (w : List LChar) : List LChar :=
  if o.stripLeadingDotslash then withoutDot w else w

theorem cleanMatch_at (o : FileSeqOptions) (h : i.At P t) : ∃ c, cleanMatch o i = .ok c ∧ Part P (o.cleaned t) c := by
  unfold cleanMatch FileSeqOptions.cleaned
  cases o.stripLeadingDotslash with
  | false =>
    obtain ⟨c, c1, c2⟩ := h.part
    exact ⟨c, c1, c2⟩
  | true =>
    simp only [if_true]
    obtain ⟨h1, h2⟩ := Nom.tag_at h (w := "./".toList) (by unfold AsciiS; decide)
    unfold withoutDot
    by_cases hp : ['.', '/'] <+: textOf t
    · obtain ⟨r, q, e1, e2, _⟩ := h1 hp
      obtain ⟨c, c1, c2⟩ := e2.part
      rw [e1, if_pos hp]
      exact ⟨c, c1, c2⟩
    · obtain ⟨c, c1, c2⟩ := h.part
      rw [h2 hp, if_neg hp]
      exact ⟨c, c1, c2⟩

theorem fileSeqLoopOpts_names (o : FileSeqOptions) (hx : o.extraStopchars.contains '\\' = false) (n : Nat) (out : List Block)
    (h : i.At P t) (hn : t.length < n) :
    ∃ bs ns, fileSeqLoopOpts o n i out = .ok (out ++ bs) ∧
      NamesIn (fileSep o.extraStopchars) (lastName (fileSep o.extraStopchars)) t ns ∧ Blocks P (ns.map (o.cleaned)) bs := by
  induction n generalizing i t out with
  | zero => omega
  | succ n ih =>
    have hsl : fileSep o.extraStopchars '\\' = false := by
      simp only [fileSep, hx]; decide
    have hs0 : fileSep o.extraStopchars (Char.ofNat 0) = true := by
      simp [fileSep]
    simp only [fileSeqLoopOpts, h.length]
    by_cases hne : t = []
    · subst hne
      exact ⟨[], _, by simp, .rest rfl, by simp [lastName, unquote, Blocks]⟩
    · have hpos := List.length_pos_iff.mpr hne
      rw [if_pos hpos]
      -- one name and the rest of the list
      have step : ∀ (w : List LChar) (b : Block) (post : Span) (rest : List LChar), Part P w b → post.At P rest →
          rest.length < n → ∃ bs ns, (if b.len > 0 then do
              let f ← cleanMatch o b.span
              fileSeqLoopOpts o n post (out ++ [f])
            else fileSeqLoopOpts o n post out) = .ok (out ++ bs) ∧
            NamesIn (fileSep o.extraStopchars) (lastName (fileSep o.extraStopchars)) rest ns ∧
            Blocks P (([w].filter (· ≠ []) ++ ns).map o.cleaned) bs := by
        intro w b post rest e2 e3 hlen
        rw [filter_word]
        by_cases hb : w = []
        · rw [if_neg (by rw [e2.len, hb]; simp)]
          obtain ⟨bs, ns, f1, f2, f3⟩ := ih out e3 hlen
          exact ⟨bs, ns, f1, f2, by rw [if_pos hb]; exact f3⟩
        · rw [if_pos (by rw [e2.len]; exact List.length_pos_iff.mpr hb)]
          obtain ⟨c, c1, c2⟩ := cleanMatch_at o e2.at
          rw [c1, Res.ok_bind]
          obtain ⟨bs, ns, f1, f2, f3⟩ := ih (out ++ [c]) e3 hlen
          refine ⟨c :: bs, ns, by rw [f1]; simp, f2, ?_⟩
          rw [if_neg hb]
          refine List.Forall₂.cons ?_ f3
          exact ⟨c2.ltext, c2.wf, c2.solid, fun v hv => e2.sens v (c2.sens v hv),
            fun hne v hv => c2.sens_all hne v (e2.sens_all hb v hv), fun m => c2.mono (e2.mono m)⟩
      obtain ⟨k1, k2⟩ := takeUntilUnquote_end (fileSep o.extraStopchars) hsl hs0 h hne
      cases hu : (unquote (fileSep o.extraStopchars) [] t).2 with
      | some y =>
        obtain ⟨x, rest⟩ := y
        obtain ⟨b, sc, post, e1, e2, _, e3⟩ := k1 x rest hu
        obtain ⟨_, a, ha⟩ := unquote_rest hu
        obtain ⟨bs, ns, f1, f2, f3⟩ := step _ b post rest e2 e3 (by rw [ha] at hn; simp at hn; omega)
        unfold fileSep at e1
        rw [e1, Res.ok_bind]
        exact ⟨bs, _, f1, .next hu f2, f3⟩
      | none =>
        rcases Nat.mod_two_eq_zero_or_one (trailingSlashes (textOf t)) with hm | hm
        · obtain ⟨b, sc, post, e1, e2, e3⟩ := (k2 hu).1 hm
          obtain ⟨bs, ns, f1, f2, f3⟩ := step _ b post [] e2 e3 (by simp; omega)
          have : ns = [] := f2.unique (.rest rfl)
          subst this
          rw [List.append_nil] at f3
          unfold fileSep at e1
          rw [e1, Res.ok_bind]
          exact ⟨bs, _, f1, .rest hu, f3⟩
        · obtain ⟨b, e1, e2⟩ := (k2 hu).2 hm
          obtain ⟨q, q1, q2⟩ := h.sliceFrom (n := t.length) (Nat.le_refl _)
          rw [List.drop_length] at q2
          obtain ⟨bs, ns, f1, f2, f3⟩ := step _ b q [] e2 q2 (by simp; omega)
          have : ns = [] := f2.unique (.rest rfl)
          subst this
          rw [List.append_nil] at f3
          unfold fileSep at e1
          rw [e1, Res.ok_bind]
          simp only [q1, Res.ok_bind]
          exact ⟨bs, _, f1, .rest hu, f3⟩


theorem parseFileSeqOpts_names (o : FileSeqOptions) (hx : o.extraStopchars.contains '\\' = false)
    (h1 : o.checkAr = false) (h2 : o.doGlob = false) (h3 : o.existOnly = false) (h : i.At P t) :
    ∃ bs ns, parseFileSeqOpts o i = .ok bs ∧
      NamesIn (fileSep o.extraStopchars) (lastName (fileSep o.extraStopchars)) t ns ∧
      Blocks P (ns.map o.cleaned) bs := by
  obtain ⟨r, w, e1, e2, _⟩ := whitespace_at h
  obtain ⟨bs, ns, f1, f2, f3⟩ := fileSeqLoopOpts_names o hx ((t.dropWhile lblank).length + 1) [] e2 (Nat.lt_succ_self _)
  refine ⟨bs, ns, ?_, ?_, f3⟩
  · unfold parseFileSeqOpts
    simp only [h1, h2, h3, e1, Res.ok_bind, e2.length, f1, List.nil_append, Bool.false_eq_true, if_false]
  · have := NamesIn.blanks (w := t.takeWhile lblank) (by
      intro x hx
      have := List.mem_takeWhile_imp hx
      rw [lblank_iff] at this
      rcases this with e | e <;> simp [e, fileSep, isWhitespace]) f2
    rwa [List.takeWhile_append_dropWhile] at this

theorem fileSeqLoopOpts_default (o : FileSeqOptions) (hd : o.stripLeadingDotslash = false) (n : Nat) (i : Span)
    (out : List Block) : fileSeqLoopOpts o n i out = fileSeqLoop o.extraStopchars n i out := by
  have hc : ∀ j : Span, cleanMatch o j = j.toNewBlock := by
    intro j
    unfold cleanMatch
    rw [hd]
    rfl
  induction n generalizing i out with
  | zero => rfl
  | succ n ih =>
    simp only [fileSeqLoopOpts, fileSeqLoop, hc, ih]
    split
    · congr 1
    · rfl

end Hastur
