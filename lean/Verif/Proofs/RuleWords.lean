import Verif.Proofs.Mword
import Verif.Proofs.EvalText
/-
Lemmas: the loop over the targets of a rule line.
-/
namespace Hastur

open Res Span

variable {P : Block} {t : List LChar} {i : Span}

/-! ### Blocks with a given text -/

/-- A block with the given text. -/
structure Buf (t : List LChar) (b : Block) : Prop where
  ltext : Block.ltext b = t
  wf : Block.WF b
  solid : b.Solid

theorem Buf.at {b : Block} (h : Buf t b) : b.span.At b t := by
  have := Block.span_at h.wf h.solid
  rwa [h.ltext] at this

theorem Buf.len {b : Block} (h : Buf t b) : b.len = t.length := by
  rw [← h.ltext, Block.ltext_length b h.wf]

theorem Buf.empty : Buf [] Block.empty := ⟨rfl, trivial, fun c hc => by cases hc⟩

theorem Part.buf {b : Block} (h : Part P t b) : Buf t b := ⟨h.ltext, h.wf, h.solid⟩

theorem Buf.pushAll {b : Block} {u : List LChar} {s : Span} (h : Buf t b) (hs : s.At P u) (hP : P.Solid) :
    ∃ b', b.pushAll s = .ok b' ∧ Buf (t ++ u) b' ∧ (Block.Mono b → (u ≠ [] → Block.Mono P) → Block.Mono b') := by
  obtain ⟨b', h1, h2, _, _, h5, h6, h7⟩ := Block.pushAll_spec h.wf hs.good
  refine ⟨b', h1, ⟨by rw [h2, h.ltext, hs.ltext], h5, h7 h.solid (by rw [hs.parent]; exact hP)⟩, fun hb hu => ?_⟩
  by_cases he : u = []
  · have h0 : s.length = 0 := by rw [hs.length, he]; rfl
    unfold Block.pushAll at h1
    rw [if_pos h0] at h1
    cases h1
    exact hb
  · exact h6 hb (by rw [hs.parent]; exact hu he)

theorem Buf.push {b : Block} {c : CRef} {x : LChar} (h : Buf t b) (h1 : CRef.ltext c = [x]) (h2 : CRef.WF c)
    (h3 : 0 < c.length) (h4 : CRef.Mono c) : Buf (t ++ [x]) (b.push c) ∧ (Block.Mono b → Block.Mono (b.push c)) := by
  refine ⟨⟨?_, ?_, ?_⟩, ?_⟩
  · have := h.ltext
    rw [Block.ltext_eq] at this
    rw [Block.ltext_eq, Block.push, CRef.ltextList_append, this]
    simp [CRef.ltextList, h1]
  · have := h.wf
    rw [Block.wf_eq] at this ⊢
    exact CRef.wfList_append.mpr ⟨this, h2, trivial⟩
  · intro d hd
    rcases List.mem_append.mp hd with hd | hd
    · exact h.solid d hd
    · cases List.mem_singleton.mp hd; exact h3
  · intro hb
    rw [Block.mono_eq] at hb ⊢
    exact CRef.monoList_append.mpr ⟨hb, h4, trivial⟩

theorem Buf.space {b : Block} (h : Buf t b) : Buf (t ++ [(' ', .synthetic)]) (b.push CRef.space) :=
  (h.push CRef.space_ltext CRef.space_wf (by decide) CRef.space_mono).1

theorem CRef.semicolon_ltext : CRef.ltext CRef.semicolon = [(';', .synthetic)] := rfl
theorem CRef.semicolon_wf : CRef.WF CRef.semicolon := ⟨by decide, by show AsciiS [';']; unfold AsciiS; decide⟩
theorem CRef.semicolon_mono : CRef.Mono CRef.semicolon := trivial

theorem Buf.semicolon {b : Block} (h : Buf t b) : Buf (t ++ [(';', .synthetic)]) (b.push CRef.semicolon) ∧
    (Block.Mono b → Block.Mono (b.push CRef.semicolon)) :=
  h.push CRef.semicolon_ltext CRef.semicolon_wf (by decide) CRef.semicolon_mono

/-- Texts joined by a space, unless the first one is empty. -/
def spaced (bt tt : List LChar) : List LChar := if bt = [] then tt else bt ++ (' ', .synthetic) :: tt

theorem pushWord_at {b w : Block} {u : List LChar} (h : Buf t b) (hw : Buf u w) :
    ∃ b', pushWord b w = .ok b' ∧ Buf (spaced t u) b' := by
  unfold pushWord spaced
  by_cases h0 : t = []
  · subst h0
    have : ¬ b.len > 0 := by rw [h.len]; simp
    rw [if_neg this]
    obtain ⟨b', e1, e2, _⟩ := h.pushAll hw.at hw.solid
    exact ⟨b', e1, by simpa using e2⟩
  · have : b.len > 0 := by rw [h.len]; exact List.length_pos_iff.mpr h0
    rw [if_pos this]
    obtain ⟨b', e1, e2, _⟩ := h.space.pushAll hw.at hw.solid
    exact ⟨b', e1, by simpa [h0] using e2⟩

/-! ### Evaluation of segments -/

theorem expandSegment_at (fs : Fs) {st : St} {es : List Expr} {u : List LChar} {vs : List Str} (hm : Block.Mono P)
    (h : i.At P t) (hr : Reads t (.ok es)) (hst : st.WF) (he : Expands st.env es u vs) :
    ∃ N b, Buf u b ∧ ∀ n, N ≤ n → expandSegment (recF fs n) i st = .ok (.ok b, st.interned vs) := by
  obtain ⟨r, a, e1, _, e3, e4⟩ := parseAst_at hm h hr
  subst e3
  obtain ⟨N, hN⟩ := evals_of_expands fs e4 hst he
  obtain ⟨b, g1, g2, _, g4, g5⟩ := hN.eval
  refine ⟨N, b, ⟨g2, g4, g5⟩, fun n hn => ?_⟩
  unfold expandSegment
  simp only [e1, ok_bind, ((recF_le fs hn).eval a st).ok g1]
  rfl

theorem evalConcat_constants (fs : Fs) (n : Nat) (ss : List LStr) (out : List CRef) (st : St) :
    evalConcat (recF fs (n + 1)) (ss.map Ast.mkConstant) [] out st =
      .ok (([], out ++ ss.map fun s => CRef.ofNode (.constant s)), st) := by
  induction ss generalizing out with
  | nil => simp [evalConcat]
  | cons s ss ih =>
    have : (recF fs (n + 1)).evalInternal (Ast.mkConstant s) st = .ok (([], [CRef.ofNode (.constant s)]), st) := rfl
    simp only [List.map_cons, evalConcat, this, ok_bind]
    have hu : Sens.union [] [] = [] := rfl
    rw [hu, ih]
    simp

/-- Text without dollar signs is evaluated to itself, in a block good for further parsing. -/
theorem expandSegment_text (fs : Fs) (hc : i.segments.crash = false) (h : i.At P t) (hf : Free '$' t) (st : St) :
    ∃ b, Buf t b ∧ Block.Mono b ∧ ∀ n, 2 ≤ n → expandSegment (recF fs n) i st = .ok (.ok b, st) := by
  have hloc := Span.location_whole h.good hc
  rw [h.ltext] at hloc
  cases t with
  | nil =>
    refine ⟨Block.empty, Buf.empty, trivial, fun n hn => ?_⟩
    obtain ⟨n, rfl⟩ := Nat.exists_eq_add_of_le' hn
    unfold expandSegment parseAst
    rw [parseAstF, hloc]
    rfl
  | cons x t =>
    obtain ⟨ss, g1, g2, g4, g3⟩ := Span.allSegments_whole h.good hc
    rw [h.ltext] at g2
    obtain ⟨r, e1, e2⟩ := Nom.rest_at h
    have u2 := (Nom.takeUntil_at h (c := '$') (by decide)).2 (free_iff.mp hf)
    have hlen : i.length > 0 := by rw [h.length]; simp
    have hparse : parseAst i = .ok (.done r (Ast.collapsingConcat x.2 (ss.map Ast.mkConstant))) := by
      unfold parseAst
      rw [parseAstF, hloc]
      simp only [ok_bind, List.head?_cons, Option.map_some]
      rw [parseAstLoop, if_pos hlen, u2, err_andThen, error_orElse]
      simp only [e1, done_mapP, done_andThen, g1, ok_bind, List.nil_append]
      rfl
    have hwf : CRef.WFList (ss.map fun s => CRef.ofNode (.constant s)) := by
      clear g1 g2 g4 hparse
      induction ss with
      | nil => trivial
      | cons s ss ih =>
        exact ⟨CRef.ofNode_wf (n := .constant s) (g3 s List.mem_cons_self), ih fun s hs => g3 s (List.mem_cons_of_mem _ hs)⟩
    have hlt : CRef.ltextList (ss.map fun s => CRef.ofNode (.constant s)) = x :: t := by
      rw [← g2]
      clear g1 g2 g4 hparse hwf
      induction ss with
      | nil => rfl
      | cons s ss ih =>
        rw [List.map_cons, CRef.ltextList, ih fun s hs => g3 s (List.mem_cons_of_mem _ hs),
          CRef.ofNode_ltext (n := .constant s) (g3 s List.mem_cons_self), segsText_cons]
        rfl
    have hmono : CRef.MonoList (ss.map fun s => CRef.ofNode (.constant s)) := by
      rw [CRef.monoList_iff]
      intro c hc
      obtain ⟨s, _, rfl⟩ := List.mem_map.mp hc
      trivial
    obtain ⟨b, b1, b2, _, _, b5, b6, b7⟩ := Block.new_spec (sens := []) hwf
    have hev : ∀ n, 2 ≤ n → (recF fs n).evalInternal (Ast.collapsingConcat x.2 (ss.map Ast.mkConstant)) st =
        .ok (([], ss.map fun s => CRef.ofNode (.constant s)), st) := by
      intro n hn
      obtain ⟨n, rfl⟩ := Nat.exists_eq_add_of_le' hn
      have hfil : (ss.map Ast.mkConstant).filter (fun a => !a.isEmpty) = ss.map Ast.mkConstant := by
        rw [List.filter_eq_self]
        intro a ha
        obtain ⟨s, _, rfl⟩ := List.mem_map.mp ha
        rfl
      unfold Ast.collapsingConcat
      rw [hfil]
      match ss with
      | [] => rfl
      | [s] => rfl
      | s :: s' :: ss' => exact evalConcat_constants fs n (s :: s' :: ss') [] st
    refine ⟨b, ⟨by rw [b2, hlt], b5, b6⟩, b7 hmono, fun n hn => ?_⟩
    unfold expandSegment
    simp only [hparse, ok_bind, Rec.eval, hev n hn, b1]
    rfl

theorem Span.At.whole (hm : Block.Mono P) (h : i.At P t) : i.segments.crash = false :=
  Span.segments_mono h.good (by rw [h.parent]; exact hm)

/-- Text without dollar signs means itself. -/
theorem expands_plain {env : Env} {u : List LChar} {es : List Expr} {vs : List Str} (hf : Free '$' t)
    (hr : Reads t (.ok es)) (he : Expands env es u vs) : u = t ∧ vs = [] := by
  induction t generalizing es u with
  | nil =>
    cases reads_nil hr
    cases he
    exact ⟨rfl, rfl⟩
  | cons x t ih =>
    rw [Free.cons] at hf
    generalize ho : Except.ok es = o0 at hr
    cases hr with
    | @char _ _ o1 _ h1 =>
      cases o1 with
      | error k => cases ho
      | ok es1 =>
        cases ho
        cases he with
        | char he =>
          obtain ⟨rfl, rfl⟩ := ih hf.2 h1 he
          exact ⟨rfl, rfl⟩
    | last => exact absurd rfl hf.1
    | dollar => exact absurd rfl hf.1
    | single => exact absurd rfl hf.1
    | paren => exact absurd rfl hf.1
    | brace => exact absurd rfl hf.1

/-- Text in one-segment pieces is expanded; so is text without dollar signs whose segments can be listed. -/
theorem expandSegment_reads (fs : Fs) {st : St} {es : List Expr} {u : List LChar} {vs : List Str}
    (hm : Block.Mono P ∨ (Free '$' t ∧ i.segments.crash = false))
    (h : i.At P t) (hr : Reads t (.ok es)) (hst : st.WF) (he : Expands st.env es u vs) :
    ∃ N b, Buf u b ∧ ∀ n, N ≤ n → expandSegment (recF fs n) i st = .ok (.ok b, st.interned vs) := by
  rcases hm with hm | ⟨hf, hc⟩
  · exact expandSegment_at fs hm h hr hst he
  · obtain ⟨rfl, rfl⟩ := expands_plain hf hr he
    obtain ⟨b, h1, _, h3⟩ := expandSegment_text fs hc h hf st
    exact ⟨2, b, h1, h3⟩

/-! ### Colons and semicolons in expanded words -/

theorem free_fileNames {c : Char} (h : FileNames t) (hc : isWhitespace c = false) (hw : ¬ WordChar c) : Free c t := by
  rintro x hx rfl
  rcases h x hx with h | h
  · exact hw h
  · rw [hc] at h; cases h

theorem unquote_split (stop : Char → Bool) {u v : List LChar} {x : LChar} (hu : Free '\\' u)
    (hs : ∀ y ∈ u, stop y.1 = false) (hx : stop x.1 = true) (hx' : x.1 ≠ '\\') :
    unquote stop [] (u ++ x :: v) = (u, some (x, v)) := by
  induction u with
  | nil => simp [unquote, hx, hx']
  | cons y u ih =>
    rw [Free.cons] at hu
    rw [List.cons_append, unquote, if_neg hu.1]
    rw [hs y List.mem_cons_self, ih hu.2 fun z hz => hs z (List.mem_cons_of_mem _ hz)]
    simp

theorem unquote_all (stop : Char → Bool) (hu : Free '\\' t) (hs : ∀ y ∈ t, stop y.1 = false) :
    unquote stop [] t = (t, none) := by
  induction t with
  | nil => simp [unquote]
  | cons y u ih =>
    rw [Free.cons] at hu
    rw [unquote, if_neg hu.1]
    rw [hs y List.mem_cons_self, ih hu.2 fun z hz => hs z (List.mem_cons_of_mem _ hz)]
    simp

theorem unquote_none (stop : Char → Bool) {t : List LChar} (hs : ∀ y ∈ t, stop y.1 = false) :
    ∀ run, unquote stop run t = (run ++ t, none) := by
  induction t with
  | nil => intro run; simp [unquote]
  | cons y u ih =>
    intro run
    rw [unquote, hs y List.mem_cons_self]
    have ih := ih fun z hz => hs z (List.mem_cons_of_mem _ hz)
    split
    · rw [ih]; simp
    · rw [ih]; simp

theorem unquote_first (stop : Char → Bool) {u v : List LChar} {x : LChar} (hs : ∀ y ∈ u, stop y.1 = false)
    (hx : stop x.1 = true) (hx' : x.1 ≠ '\\') : ∀ run, (u = [] → run = []) →
    (∀ y, u.getLast? = some y → y.1 ≠ '\\') → unquote stop run (u ++ x :: v) = (run ++ u, some (x, v)) := by
  induction u with
  | nil => intro run hr _; rw [hr rfl]; simp [unquote, hx, hx']
  | cons y u ih =>
    intro run _ hl
    have ih := ih fun z hz => hs z (List.mem_cons_of_mem _ hz)
    rw [List.cons_append, unquote, hs y List.mem_cons_self]
    split
    · rename_i hy
      rw [ih (run ++ [y]) (by rintro rfl; exact absurd hy (hl y rfl)) ?_]
      · simp
      · intro z hz
        refine hl z ?_
        cases u with
        | nil => cases hz
        | cons w u => rw [List.getLast?_cons_cons]; exact hz
    · rw [ih [] (fun _ => rfl) ?_]
      · simp
      · intro z hz
        refine hl z ?_
        cases u with
        | nil => cases hz
        | cons w u => rw [List.getLast?_cons_cons]; exact hz

theorem takeUntilUnquote_copy (stop : Char → Bool) (hs : stop '\\' = false) (h0 : stop (Char.ofNat 0) = false)
    (h : i.At P t) (hn : ∀ x ∈ t, stop x.1 = false) :
    ∃ b, takeUntilUnquote i stop = .ok (b, none) ∧ Part P t b := by
  have hu := unquote_none stop hn []
  obtain ⟨b, e1, e2⟩ := (takeUntilUnquote_spec stop hs h0 h).2 (by rw [hu])
  rw [hu] at e2
  exact ⟨b, e1, e2⟩

theorem takeUntilUnquote_miss (stop : Char → Bool) (hs : stop '\\' = false) (h0 : stop (Char.ofNat 0) = false)
    (h : i.At P t) (hf : Free '\\' t) (hn : ∀ x ∈ t, stop x.1 = false) :
    ∃ b, takeUntilUnquote i stop = .ok (b, none) ∧ Part P t b := by
  have hu := unquote_all stop hf hn
  obtain ⟨b, e1, e2⟩ := (takeUntilUnquote_spec stop hs h0 h).2 (by rw [hu])
  rw [hu] at e2
  exact ⟨b, e1, e2⟩

theorem takeUntilUnquote_hit (stop : Char → Bool) (hs : stop '\\' = false) (h0 : stop (Char.ofNat 0) = false)
    {u v : List LChar} {x : LChar} (h : i.At P (u ++ x :: v)) (hf : Free '\\' u) (hn : ∀ x ∈ u, stop x.1 = false)
    (hx : stop x.1 = true) :
    ∃ b sc post, takeUntilUnquote i stop = .ok (b, some (sc, post)) ∧ Part P u b ∧ sc.At P [x] ∧ post.At P v := by
  have hu := unquote_split (v := v) stop hf hn hx (by rintro he; rw [he, hs] at hx; cases hx)
  obtain ⟨b, sc, post, e1, e2, e3, e4⟩ := (takeUntilUnquote_spec stop hs h0 h).1 x v (by rw [hu])
  rw [hu] at e2
  exact ⟨b, sc, post, e1, e2, e3, e4⟩

/-- A word without colon. -/
theorem findColon_none {b : Block} (h : Buf t b) (hf : Free '\\' t) (hc : Free ':' t) :
    ∃ pre, findNonDrivespecColon b.span = .ok (pre, none) ∧ Buf t pre := by
  obtain ⟨p, e1, e2⟩ := takeUntilUnquote_miss (· == ':') (by decide) (by decide) h.at hf
    (fun x hx => by simpa using hc x hx)
  obtain ⟨q, f1, f2, _⟩ := Buf.empty.pushAll e2.buf.at e2.solid
  refine ⟨q, ?_, by simpa using f2⟩
  unfold findNonDrivespecColon colonLoop
  simp only [e1, ok_bind, f1]
  rfl

/-- A word with a colon that does not look like part of a file name. -/
theorem findColon_some {b : Block} {u v : List LChar} {l : Location} (h : Buf (u ++ (':', l) :: v) b) (hf : Free '\\' u)
    (hc : Free ':' u) (hv : (textOf v).head? ≠ some '/' ∧ (textOf v).head? ≠ some '\\') :
    ∃ pre post, findNonDrivespecColon b.span = .ok (pre, some post) ∧ Buf u pre ∧ post.At b v := by
  obtain ⟨p, sc, post, e1, e2, e3, e4⟩ := takeUntilUnquote_hit (· == ':') (by decide) (by decide) h.at hf
    (fun x hx => by simpa using hc x hx) (by simp)
  obtain ⟨q, f1, f2, _⟩ := Buf.empty.pushAll e2.buf.at e2.solid
  refine ⟨q, post, ?_, by simpa using f2, e4⟩
  have hd : isDrivespec p post = .ok false := by
    unfold isDrivespec
    rw [Nom.firstChar_at e4]
    simp only [ok_bind]
    cases hh : (textOf v).head? with
    | none => rfl
    | some c =>
      rw [hh] at hv
      have : c ≠ '/' ∧ c ≠ '\\' := ⟨fun e => hv.1 (by rw [e]), fun e => hv.2 (by rw [e])⟩
      simp only [if_pos this]
      rfl
  unfold findNonDrivespecColon colonLoop
  simp only [e1, ok_bind, f1, hd]
  rfl

theorem semicolonInWord_none (r : Rec) {b : Block} (h : Buf t b) (hf : Free '\\' t) (hs : Free ';' t) (lineNext : Span)
    (postSemi : Option Block) (st : St) :
    semicolonInWord r b lineNext postSemi st = .ok (.ok (b, lineNext, postSemi), st) := by
  cases postSemi with
  | some q => rfl
  | none =>
    obtain ⟨p, e1, e2⟩ := takeUntilUnquote_miss (· == ';') (by decide) (by decide) h.at hf
      (fun x hx => by simpa using hs x hx)
    unfold semicolonInWord
    simp only [e1, ok_bind]
    rfl

/-! ### The loop -/

theorem spaced_spaced {bt t tt : List LChar} (h : t ≠ []) : spaced (spaced bt t) tt = spaced bt (t ++ (' ', .synthetic) :: tt) := by
  unfold spaced
  by_cases hb : bt = []
  · simp [hb, h]
  · simp [hb]

theorem spaced_ne {bt t : List LChar} (h : t ≠ []) : spaced bt t ≠ [] := by
  unfold spaced
  by_cases hb : bt = []
  · simp [hb, h]
  · simp [hb]

theorem colons_split {cs : List LChar} {double : Bool} (hc : textOf cs = (if double then "::".toList else ":".toList)) :
    ∃ l cs', cs = (':', l) :: cs' ∧ textOf cs' = if double then [':'] else [] := by
  cases cs with
  | nil => cases double <;> cases hc
  | cons x cs' =>
    obtain ⟨c, l⟩ := x
    cases double <;>
    · simp only [textOf_cons] at hc
      injection hc with h1 h2
      subst h1
      exact ⟨l, cs', rfl, h2⟩

/-- The targets can be read: every piece of the block has one segment, or there are no dollar signs in the targets,
and they are in the first piece of the only window of the block. -/
def TargetsReadable (P : Block) (ts ds : List LChar) (lineNext : Span) : Prop :=
  Block.Mono P ∨ (Free '$' ts ∧ lineNext.EndsAt P.len ∧
    ∃ c k, P.content = [c] ∧ CRef.Front k c ∧ P.len ≤ k + 1 + ds.length)

/-- One word of the targets can be read. -/
theorem TargetsReadable.word {ts ds : List LChar} {lineNext r m : Span} {reason : MWordEnd} {t u u' : List LChar}
    (h : TargetsReadable P ts ds lineNext) (hl : lineNext.At P t) (hn : nextMword lineNext = .ok (.done r (m, reason)))
    (hm : m.At P u) (hu : u ≠ []) (hr : r.At P u') (hd : ds.length ≤ u'.length) :
    (Block.Mono P ∨ m.segments.crash = false) ∧ (Block.Mono P ∨ r.EndsAt P.len) := by
  rcases h with h | ⟨_, h2, c, k, h3, h4, h5⟩
  · exact ⟨.inl h, .inl h⟩
  · obtain ⟨g1, g2, g3⟩ := nextMword_tail (by rw [hl.parent]; exact h3) h2 hn (by rw [hm.length]; simpa using hu)
    refine ⟨.inr (hm.front h3 g2 (k := k) ?_ h4), .inr g1⟩
    have := List.length_pos_iff.mpr hu
    rw [hm.length, hr.length] at g3
    omega

theorem TargetsReadable.free {ts ds : List LChar} {lineNext : Span} (h : TargetsReadable P ts ds lineNext) :
    Block.Mono P ∨ Free '$' ts := by
  rcases h with h | h
  · exact .inl h
  · exact .inr h.1

theorem readable_of {m : Span} {u : List LChar} (h1 : Block.Mono P ∨ Free '$' u)
    (h2 : Block.Mono P ∨ m.segments.crash = false) : Block.Mono P ∨ (Free '$' u ∧ m.segments.crash = false) := by
  rcases h1 with h1 | h1
  · exact .inl h1
  rcases h2 with h2 | h2
  · exact .inl h2
  · exact .inr ⟨h1, h2⟩

/-- What the loop over the targets ends with. -/
structure WordsDone (fs : Fs) (P : Block) (st : St) (r m : Span) (reason : MWordEnd) (postSemi : Option Block)
    (tt tail : List LChar) (vs : List Str) (len N : Nat) (after : Block) (ln : Span) (at' lt : List LChar) : Prop where
  buf : Buf at' after
  mono : at' ≠ [] → Block.Mono after
  line : ln.At P lt
  text : at' ++ lt = tail
  ends : Block.Mono P ∨ ln.EndsAt P.len
  run : ∀ n k buf bt, N ≤ n → len < k → Buf bt buf → ∃ b' mwt extra,
    wordLoop (recF fs n) k r m reason buf postSemi st = .ok (.finished b' (some after) ln postSemi mwt, st.interned vs) ∧
      Buf (spaced bt tt ++ extra) b' ∧ (extra = [] ∨ extra = [(' ', .synthetic)]) ∧ mwt ≠ .eol

theorem fileNames_free (h : FileNames t) : Free '\\' t ∧ Free ':' t ∧ Free ';' t := by
  have nw : ∀ c, c ∈ [Char.ofNat 0, ':', '=', ';', '#', '$', '\\'] → ¬ WordChar c := fun c hc hw => hw.2 hc
  exact ⟨free_fileNames h (by decide) (nw _ (by decide)), free_fileNames h (by decide) (nw _ (by decide)),
    free_fileNames h (by decide) (nw _ (by decide))⟩

/-- One round of the loop, for a word without colon. -/
theorem wordLoop_plain {r : Rec} {lineNext m r2 m2 : Span} {mwt mwt2 : MWordEnd} {buf b : Block} {bt u : List LChar}
    {postSemi : Option Block} {st st' : St} (he : expandSegment r m st = .ok (.ok b, st')) (hb : Buf u b) (hu : FileNames u)
    (hne : u ≠ []) (hn : nextMword lineNext = .ok (.done r2 (m2, mwt2))) (hm : mwt2 ≠ .eol) (hbuf : Buf bt buf) :
    ∃ buf', Buf (spaced bt u) buf' ∧ ∀ k, wordLoop r (k + 1) lineNext m mwt buf postSemi st =
      wordLoop r k r2 m2 mwt2 buf' postSemi st' := by
  obtain ⟨f1, f2, f3⟩ := fileNames_free hu
  obtain ⟨pre, p1, p2⟩ := findColon_none hb f1 f2
  obtain ⟨buf', q1, q2⟩ := pushWord_at hbuf p2
  refine ⟨buf', q2, fun k => ?_⟩
  have hlen : ¬ b.len = 0 := by rw [hb.len]; simpa using hne
  rw [wordLoop]
  simp only [he, ok_bind, semicolonInWord_none r hb f1 f3, if_neg hlen, p1, hn, if_neg hm, q1]

/-- The last round of the loop, for a word with a colon. -/
theorem wordLoop_colon {b : Block} {u v : List LChar} {l : Location} (hb : Buf (u ++ (':', l) :: v) b)
    (hu : FileNames u) (hv : v = [] ∨ textOf v = [':']) :
    ∃ after, Buf v after ∧ (Block.Mono b → Block.Mono after) ∧
      ∀ {r : Rec} {lineNext m : Span} {mwt : MWordEnd} {buf : Block} {bt : List LChar} {postSemi : Option Block} {st st' : St},
        expandSegment r m st = .ok (.ok b, st') → Buf bt buf → ∃ buf', Buf (spaced bt u) buf' ∧
        ∀ k, wordLoop r (k + 1) lineNext m mwt buf postSemi st =
          .ok (.finished buf' (some after) lineNext postSemi mwt, st') := by
  obtain ⟨f1, f2, f3⟩ := fileNames_free hu
  have hvt : ∀ x ∈ v, x.1 = ':' := by
    rcases hv with rfl | hv
    · simp
    · intro x hx
      have : x.1 ∈ textOf v := mem_textOf.mpr ⟨x, hx, rfl⟩
      rw [hv] at this
      simpa using this
  obtain ⟨pre, post, p1, p2, p3⟩ := findColon_some hb f1 f2 (by
    rcases hv with rfl | hv
    · simp
    · rw [hv]; decide)
  obtain ⟨after, a1, a2⟩ := p3.part
  refine ⟨after, a2.buf, a2.mono, ?_⟩
  intro r lineNext m mwt buf bt postSemi st st' he hbuf
  obtain ⟨buf', q1, q2⟩ := pushWord_at hbuf p2
  refine ⟨buf', q2, fun k => ?_⟩
  have hlen : ¬ b.len = 0 := by rw [hb.len]; simp
  have free : ∀ c, c ≠ ':' → Free c u → Free c (u ++ (':', l) :: v) := by
    intro c hc h
    rw [Free.append, Free.cons]
    exact ⟨h, fun e => hc e.symm, fun x hx e => hc (by rw [← e, hvt x hx])⟩
  rw [wordLoop]
  simp only [he, ok_bind, semicolonInWord_none r hb (free _ (by decide) f1) (free _ (by decide) f3), if_neg hlen, p1, a1, q1]
  rfl

/-- The loop over the targets of a rule line. -/
theorem wordLoop_targets (fs : Fs) {env : Env} {ts tt : List LChar} {vs : List Str}
    (hT : TargetsExpand env ts tt vs) {cs ds : List LChar} {double : Bool}
    (hc : textOf cs = (if double then "::".toList else ":".toList)) (hd1 : (textOf ds).head? ≠ some '=')
    (hd2 : (textOf ds).head? ≠ some ':') (hd3 : (textOf ds).head? ≠ some '\\') (postSemi : Option Block) :
    ∀ {st : St} {gap : List LChar} {lineNext : Span}, st.WF → st.env = env → Blanks gap →
      lineNext.At P (gap ++ (ts ++ (cs ++ ds))) → TargetsReadable P ts ds lineNext →
      ∃ N r m reason after ln at' lt, nextMword lineNext = .ok (.done r (m, reason)) ∧
        (reason = .static ∨ reason = .variable) ∧ ds.length ≤ lt.length ∧
        WordsDone fs P st r m reason postSemi tt (cs.drop 1 ++ ds) vs (ts.length + 1) N after ln at' lt := by
  obtain ⟨l, cs', hcs, hcs'⟩ := colons_split hc
  have hcs'' : cs' = [] ∨ textOf cs' = [':'] := by
    cases double with
    | true => exact .inr hcs'
    | false =>
      left
      have : cs'.length = 0 := by rw [← textOf_length cs', hcs']; rfl
      exact List.length_eq_zero_iff.mp this
  induction hT with
  | @last w gap' t es vs hw hne hg' hr he hfn hte =>
    intro st gap lineNext hst henv hg h hread
    subst henv
    cases gap' with
    | nil =>
      rw [List.append_nil] at h
      have hstop : WordStop (textOf (cs ++ ds)) := by
        rw [hcs, List.cons_append, textOf_cons]
        refine .colon ?_
        rw [textOf_append]
        rcases hcs'' with h0 | h0
        · rw [h0]; exact hd3
        · rw [h0]; simp
      obtain ⟨r, m, reason, e1, e2, e3, e4⟩ := nextMword_segment h hg hw hne hstop
      have hx : WordStop.extra (textOf (cs ++ ds)) = 1 := by rw [hcs]; rfl
      rw [hx] at e2 e3
      have e2' : r.At P (cs' ++ ds) := by rw [hcs] at e2; exact e2
      have e3' : m.At P (w ++ [(':', l)]) := by rw [hcs] at e3; exact e3
      have hread' := reads_segment hw hr (reads_text (t := [(':', l)]) (by unfold Free; simp))
      obtain ⟨q1, q2⟩ := hread.word h e1 e3' (by simp) e2' (by simp)
      have q0 : Block.Mono P ∨ Free '$' (w ++ [(':', l)]) := hread.free.imp id fun hf => by
        rw [List.append_nil] at hf
        exact Free.append.mpr ⟨hf, by unfold Free; simp⟩
      obtain ⟨N, b, b1, b2⟩ := expandSegment_reads fs (readable_of q0 q1) e3' hread' hst (he.append (.text _ [(':', l)]))
      rw [List.append_nil] at b2
      obtain ⟨after, a1, _, a3⟩ := wordLoop_colon b1 hfn (.inl rfl)
      refine ⟨N, r, m, reason, after, r, [], cs' ++ ds, e1, e4, by simp, ⟨a1, fun h => absurd rfl h, e2', by rw [hcs]; rfl, q2, ?_⟩⟩
      intro n k buf bt hn hk hbuf
      obtain ⟨k, rfl⟩ := Nat.exists_eq_add_of_lt hk
      obtain ⟨buf', g1, g2⟩ := a3 (r := recF fs n) (lineNext := r) (mwt := reason) (postSemi := postSemi) (b2 n hn) hbuf
      exact ⟨buf', reason, [], g2 _, by simpa using g1, .inl rfl, by rcases e4 with h | h <;> rw [h] <;> decide⟩
    | cons x gap'' =>
      have hblank := hg' x List.mem_cons_self
      have hstop : WordStop (textOf (x :: gap'' ++ (cs ++ ds))) := by
        rw [List.cons_append, textOf_cons]
        exact .blank hblank
      rw [List.append_assoc] at h
      obtain ⟨r, m, reason, e1, e2, e3, e4⟩ := nextMword_segment h hg hw hne hstop
      have hx : WordStop.extra (textOf (x :: gap'' ++ (cs ++ ds))) = 0 := by
        rw [List.cons_append, textOf_cons]
        simp only [WordStop.extra]
        rw [if_neg]
        rcases hblank with h | h <;> rw [h] <;> decide
      rw [hx, List.drop_zero] at e2
      rw [hx, List.take_zero, List.append_nil] at e3
      obtain ⟨q1, q2⟩ := hread.word h e1 e3 hne e2 (by simp; omega)
      obtain ⟨N, b, b1, b2⟩ := expandSegment_reads fs
        (readable_of (hread.free.imp id fun hf => (Free.append.mp hf).1) q1) e3 hr hst he
      obtain ⟨r2, m2, reason2, c1, c2, c3, c4⟩ := nextMword_colon e2 hg' hc hd1 hd2
      rw [hcs] at c3
      have hread2 : TargetsReadable P [] ds r := by
        rcases hread with h | ⟨_, _, h3⟩
        · exact .inl h
        rcases q2 with h | h
        · exact .inl h
        · exact .inr ⟨(by intro x hx; cases hx), h, h3⟩
      obtain ⟨q3, q4⟩ := hread2.word e2 c1 c3 (by simp) c2 (Nat.le_refl _)
      obtain ⟨b', k1, k2, k3⟩ := expandSegment_text fs (q3.elim (fun hm => c3.whole hm) id) c3 (by
        intro y hy
        rcases List.mem_cons.mp hy with rfl | hy
        · simp
        · rcases hcs'' with h0 | h0
          · rw [h0] at hy; cases hy
          · have : y.1 ∈ textOf cs' := mem_textOf.mpr ⟨y, hy, rfl⟩
            rw [h0] at this
            simp only [List.mem_singleton] at this
            rw [this]; decide) (st.interned vs)
      obtain ⟨after, a1, a2, a3⟩ := wordLoop_colon (u := []) k1 (fun x hx => by cases hx) hcs''
      refine ⟨max N 2, r, m, reason, after, r2, cs', ds, e1, e4, Nat.le_refl _, ⟨a1, fun _ => a2 k2, c2, by rw [hcs]; rfl, q4, ?_⟩⟩
      intro n k buf bt hn hk hbuf
      have hk' : ∃ k', k = k' + 1 + 1 := ⟨k - 2, by
        have := List.length_pos_iff.mpr hne
        simp at hk; omega⟩
      obtain ⟨k, rfl⟩ := hk'
      obtain ⟨buf1, g1, g2⟩ := wordLoop_plain (mwt := reason) (postSemi := postSemi) (b2 n (by omega)) b1 hfn hte c1 c4 hbuf
      obtain ⟨buf2, g3, g4⟩ := a3 (r := recF fs n) (lineNext := r2) (mwt := reason2) (postSemi := postSemi)
        (k3 n (by omega)) g1
      refine ⟨buf2, reason2, [(' ', .synthetic)], by rw [g2, g4], ?_, .inr rfl, c4⟩
      have : spaced (spaced bt t) [] = spaced bt t ++ [(' ', .synthetic)] := by
        rw [spaced, if_neg (spaced_ne hte)]
      rwa [this] at g3
  | @more w gap' t ts tt es vs us hw hne hg' hgne hr he hfn hte hT ih =>
    intro st gap lineNext hst henv hg h hread
    subst henv
    obtain ⟨x, gap'', rfl⟩ := List.exists_cons_of_ne_nil hgne
    have hblank := hg' x List.mem_cons_self
    simp only [List.append_assoc] at h
    have hstop : WordStop (textOf (x :: gap'' ++ (ts ++ (cs ++ ds)))) := by
      rw [List.cons_append, textOf_cons]
      exact .blank hblank
    obtain ⟨r, m, reason, e1, e2, e3, e4⟩ := nextMword_segment h hg hw hne hstop
    have hx : WordStop.extra (textOf (x :: gap'' ++ (ts ++ (cs ++ ds)))) = 0 := by
      rw [List.cons_append, textOf_cons]
      simp only [WordStop.extra]
      rw [if_neg]
      rcases hblank with h | h <;> rw [h] <;> decide
    rw [hx, List.drop_zero] at e2
    rw [hx, List.take_zero, List.append_nil] at e3
    obtain ⟨q1, q2⟩ := hread.word h e1 e3 hne e2 (by simp; omega)
    obtain ⟨N, b, b1, b2⟩ := expandSegment_reads fs
      (readable_of (hread.free.imp id fun hf => (Free.append.mp hf).1) q1) e3 hr hst he
    have hread2 : TargetsReadable P ts ds r := by
      rcases hread with h | ⟨h1, _, h3⟩
      · exact .inl h
      rcases q2 with h | h
      · exact .inl h
      · exact .inr ⟨(Free.append.mp (Free.append.mp h1).2).2, h, h3⟩
    obtain ⟨M, r2, m2, reason2, after, ln, at', lt, c1, c2, c3, ⟨d1, d2, d3, d4, d6, d5⟩⟩ :=
      ih (st := st.interned vs) (hst.interned vs) (hst.env_interned vs) hg' e2 hread2
    refine ⟨max N M, r, m, reason, after, ln, at', lt, e1, e4, c3, ⟨d1, d2, d3, d4, d6, ?_⟩⟩
    intro n k buf bt hn hk hbuf
    obtain ⟨k, rfl⟩ := Nat.exists_eq_add_of_lt (show 0 < k by omega)
    obtain ⟨buf1, g1, g2⟩ := wordLoop_plain (mwt := reason) (postSemi := postSemi) (b2 n (by omega)) b1 hfn hte c1
      (by rcases c2 with h | h <;> rw [h] <;> decide) hbuf
    obtain ⟨b', mwt, extra, f1, f2, f3, f4⟩ := d5 n (0 + k) buf1 _ (by omega) (by
      have := List.length_pos_iff.mpr hne
      simp at hk; omega) g1
    refine ⟨b', mwt, extra, by rw [g2, f1, St.interned_append], ?_, f3, f4⟩
    rwa [spaced_spaced hte] at f2

end Hastur
