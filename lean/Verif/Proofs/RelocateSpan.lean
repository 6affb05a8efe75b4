import Verif.Proofs.Relocate
/-
Every function of the model commutes with changing locations: spans, nom, lines and expressions.
-/
namespace Hastur

open Res Span

variable {g : Location → Location}

/-! ### Spans -/

theorem Span.contents_rl (s : Span) : (rl g s).contents = rl g s.contents := by
  show (Block.mapLoc g s.parent).content.drop s.start = (s.parent.content.drop s.start).map (CRef.mapLoc g)
  rw [Block.mapLoc_content, List.map_drop]

theorem Span.length_rl (s : Span) : (rl g s).length = s.length := rfl

theorem Block.span_rl (b : Block) : Block.span (rl g b) = rl g (Block.span b) := by
  unfold Block.span
  rw [Block.len_rl]
  rfl

theorem charsList_rl (cs : List CRef) : CRef.charsList (rl g cs) = CRef.charsList cs := by
  rw [← CRef.charsList_mapLocs (g := g) cs, CRef.mapLocs_eq]
  rfl

theorem Span.chars_rl (s : Span) : (rl g s).chars = s.chars := by
  unfold Span.chars
  rw [Span.contents_rl]
  cases s.contents with
  | nil => rfl
  | cons c cs =>
    show limitBytes s.length (((CRef.chars (CRef.mapLoc g c)).skip s.offset).append (CRef.charsList (rl g cs))).items
      (((CRef.chars (CRef.mapLoc g c)).skip s.offset).append (CRef.charsList (rl g cs))).crash = _
    rw [CRef.chars_mapLoc, charsList_rl]

theorem Span.emptyAtEnd_rl (s : Span) : (rl g s).emptyAtEnd = rl g s.emptyAtEnd := by
  unfold Span.emptyAtEnd
  show Span.mk _ (Block.mapLoc g s.parent).content.length _ _ = Span.mk _ _ _ _
  rw [Block.mapLoc_content, List.length_map]
  rfl

theorem revalLoop_rl (cs : List CRef) : ∀ a o : Nat, revalLoop (rl g cs) a o = revalLoop cs a o := by
  induction cs with
  | nil => intro a o; rfl
  | cons c cs ih =>
    intro a o
    show revalLoop (CRef.mapLoc g c :: rl g cs) a o = _
    unfold revalLoop
    rw [CRef.mapLoc_length, ih]

theorem Span.revalidate_rl (s : Span) : (rl g s).revalidate = rl g s.revalidate := by
  unfold Span.revalidate
  refine ite_rl (fun _ => rfl) fun _ => ?_
  rw [Span.contents_rl]
  exact bind_eq (revalLoop_rl _ _ _) fun _ => rfl

theorem Span.intoString_rl (s : Span) : (rl g s).intoString = s.intoString := by
  unfold Span.intoString
  rw [Span.chars_rl]
  rfl

theorem Span.empty_rl : rl g Span.empty = Span.empty := by
  unfold Span.empty
  show Span.mk (rl g Block.empty) _ _ _ = _
  rw [Block.empty_rl]

section
variable [Moves g]

theorem segmentsList_rl (cs : List CRef) : CRef.segmentsList (rl g cs) = rl g (CRef.segmentsList cs) := by
  rw [← CRef.segmentsList_mapLocs (g := g) cs, CRef.mapLocs_eq]
  rfl

theorem Span.segments_rl (s : Span) : (rl g s).segments = rl g s.segments := by
  unfold Span.segments
  rw [Span.contents_rl, segmentsList_rl]
  exact spanSegs_rl _ _ _ _

theorem Span.firstSegment_rl (s : Span) : (rl g s).firstSegment = rl g s.firstSegment := by
  unfold Span.firstSegment
  rw [Span.segments_rl]
  rcases s.segments with ⟨_ | ⟨t, ts⟩, _ | _⟩ <;> rfl

theorem Span.allSegments_rl (s : Span) : (rl g s).allSegments = rl g s.allSegments := by
  unfold Span.allSegments
  rw [Span.segments_rl]
  exact ite_rl (fun _ => rfl) fun _ => rfl

theorem Span.location_rl (s : Span) : (rl g s).location = rl g s.location := by
  unfold Span.location
  refine bind_rl (Span.firstSegment_rl s) fun t => ?_
  cases t <;> rfl

end

theorem collectRefs_rl (rest : List CRef) : ∀ (c : CRef) (n : Nat),
    collectRefs (rl g c) (rl g rest) n = rl g (collectRefs c rest n) := by
  induction rest with
  | nil =>
    intro c n
    unfold collectRefs
    show (if (CRef.mapLoc g c).length < n then _ else _) = _
    rw [CRef.mapLoc_length]
    refine ite_rl (fun _ => rfl) fun _ => ?_
    obtain ⟨o, l, nd⟩ := c
    show Res.ok _ = Res.ok [CRef.mapLoc g _]
    simp only [rl, CRef.mapLoc_mk]
  | cons r rs ih =>
    intro c n
    unfold collectRefs
    show (if (CRef.mapLoc g c).length < n then _ else _) = _
    rw [CRef.mapLoc_length]
    refine ite_rl (fun _ => ?_) fun _ => ?_
    · show (rl g c :: ·) <$> collectRefs (rl g r) (rl g rs) (n - (CRef.mapLoc g c).length) = _
      rw [CRef.mapLoc_length]
      exact map_rl (ih _ _) fun _ => rfl
    · obtain ⟨o, l, nd⟩ := c
      show Res.ok _ = Res.ok [CRef.mapLoc g _]
      simp only [rl, CRef.mapLoc_mk]

theorem Span.coveredRefs_rl (s : Span) : (rl g s).coveredRefs = rl g s.coveredRefs := by
  unfold Span.coveredRefs
  rw [Span.contents_rl]
  cases s.contents with
  | nil => rfl
  | cons c cs =>
    obtain ⟨o, l, nd⟩ := c
    have hc : rl g ((⟨o, l, nd⟩ : CRef) :: cs) = (⟨o, l, Node.mapLoc g nd⟩ : CRef) :: rl g cs := by
      show CRef.mapLoc g _ :: _ = _
      rw [CRef.mapLoc_mk]
      rfl
    rw [hc]
    refine bind_eq rfl fun _ => ?_
    rw [← collectRefs_rl]
    congr 1

theorem Span.toNewBlock_rl [Moves g] (s : Span) : (rl g s).toNewBlock = rl g s.toNewBlock := by
  unfold Span.toNewBlock
  refine ite_rl (fun _ => ?_) fun _ => ?_
  · show _ = Res.ok (rl g Block.empty)
    rw [Block.empty_rl]
  · refine bind_rl (Span.coveredRefs_rl s) fun n => ?_
    show Block.new (Block.mapLoc g s.parent).sens _ = _
    rw [Block.mapLoc_sens]
    exact Block.new_rl _ _

theorem concat_rl (b : Block) : Node.concat (rl g b) = rl g (Node.concat b) := by
  show _ = Node.mapLoc g _
  simp only [Node.mapLoc]
  rfl

theorem Span.toContentReference_rl [Moves g] (s : Span) : (rl g s).toContentReference = rl g s.toContentReference := by
  unfold Span.toContentReference
  refine bind_rl (Span.toNewBlock_rl s) fun b => ?_
  show Res.ok _ = Res.ok (rl g _)
  rw [← CRef.ofNode_rl, ← concat_rl]

theorem Block.rl_sens (b : Block) : (rl g b).sens = b.sens := Block.mapLoc_sens b
theorem Block.rl_content (b : Block) : (rl g b).content = rl g b.content := Block.mapLoc_content b

theorem Block.pushAll_rl (b : Block) (s : Span) : Block.pushAll (rl g b) (rl g s) = rl g (Block.pushAll b s) := by
  unfold Block.pushAll
  refine ite_rl (fun _ => rfl) fun _ => ?_
  refine bind_rl (Span.coveredRefs_rl s) fun n => ?_
  show Res.ok _ = Res.ok (rl g _)
  have hs : (rl g s).parent.sens = s.parent.sens := Block.mapLoc_sens _
  rw [hs, Block.rl_sens, Block.rl_content, ← rl_append, ← Block.rl_mk]

theorem Span.slice_rl (s : Span) (a b : Nat) : (rl g s).slice a b = rl g (s.slice a b) := by
  unfold Span.slice
  exact bind_eq rfl fun n => Span.revalidate_rl { s with offset := s.offset + a, length := n }

theorem Span.sliceFrom_rl (s : Span) (a : Nat) : (rl g s).sliceFrom a = rl g (s.sliceFrom a) := by
  unfold Span.sliceFrom
  exact bind_eq rfl fun n => Span.revalidate_rl { s with offset := s.offset + a, length := n }

theorem Span.sliceTo_rl (s : Span) (a : Nat) : (rl g s).sliceTo a = rl g (s.sliceTo a) := rfl

theorem Span.findChar_rl (s : Span) (p : Char → Bool) : (rl g s).findChar p = s.findChar p := by
  unfold Span.findChar
  rw [Span.chars_rl]

theorem Span.takeSplit_rl (s : Span) (n : Nat) : (rl g s).takeSplit n = rl g (s.takeSplit n) := by
  unfold Span.takeSplit
  exact bind_eq rfl fun _ => bind_rl (Span.sliceFrom_rl s n) fun _ => rfl

theorem Span.splitAtPosition_rl (s : Span) (p : Char → Bool) :
    (rl g s).splitAtPosition p = rl g (s.splitAtPosition p) := by
  unfold Span.splitAtPosition
  refine bind_eq (Span.findChar_rl s p) fun x => ?_
  cases x with
  | none =>
    show Res.ok _ = Res.ok _
    rw [Span.emptyAtEnd_rl]
    rfl
  | some ic => exact bind_rl (Span.sliceFrom_rl s ic.1) fun _ => rfl

theorem Span.compare_rl (s : Span) (t : Str) : (rl g s).compare t = s.compare t := by
  unfold Span.compare
  rw [Span.chars_rl]
  rfl

theorem Span.compareNoCase_rl (s : Span) (t : Str) : (rl g s).compareNoCase t = s.compareNoCase t := by
  unfold Span.compareNoCase
  rw [Span.chars_rl]
  rfl

theorem Span.findSubstring_rl (s : Span) (t : Str) : (rl g s).findSubstring t = s.findSubstring t := by
  unfold Span.findSubstring
  rw [Span.chars_rl]
  rfl

theorem walkLengths_rl (cs : List CRef) : ∀ n : Nat, walkLengths (rl g cs) n = walkLengths cs n := by
  induction cs with
  | nil => intro n; cases n <;> rfl
  | cons c cs ih =>
    intro n
    cases n with
    | zero => rfl
    | succ n =>
      show (CRef.mapLoc g c).length + walkLengths (rl g cs) n = c.length + walkLengths cs n
      rw [CRef.mapLoc_length, ih]

theorem Span.offsetTo_rl (s t : Span) : (rl g s).offsetTo (rl g t) = s.offsetTo t := by
  unfold Span.offsetTo
  rw [Span.contents_rl]
  have hl : (rl g s.contents).length = s.contents.length := List.length_map _
  rw [hl]
  cases s.contents with
  | nil => rfl
  | cons c cs =>
    show ((rassert _) >>= fun _ => (rassert _) >>= fun _ => if t.start = s.start then usub t.offset s.offset else
      (usub (CRef.mapLoc g c).length s.offset) >>= fun tr => pure (tr + walkLengths (rl g cs) (t.start - s.start - 1))) = _
    rw [CRef.mapLoc_length, walkLengths_rl]
    rfl

/-! ### nom -/

namespace Nom

theorem done_rl {α : Type} [Reloc α] (i : Span) (a : α) : done (rl g i) (rl g a) = rl g (done i a) := rfl

theorem split_done (i : Span) (n : Nat) :
    ((rl g i).takeSplit n >>= fun rp => (done rp.1 rp.2 : PRes Span)) = rl g (i.takeSplit n >>= fun rp => (done rp.1 rp.2 : PRes Span)) :=
  bind_rl (Span.takeSplit_rl i n) fun _ => rfl

theorem tag_rl (t : Str) (i : Span) : tag t (rl g i) = rl g (tag t i) := by
  unfold tag
  refine bind_eq (Span.compare_rl i t) fun x => ?_
  cases x with
  | ok => exact split_done i _
  | _ => rfl

theorem tagNoCase_rl (t : Str) (i : Span) : tagNoCase t (rl g i) = rl g (tagNoCase t i) := by
  unfold tagNoCase
  refine bind_eq (Span.compareNoCase_rl i t) fun x => ?_
  cases x with
  | ok => exact split_done i _
  | _ => rfl

theorem firstChar_rl (i : Span) : firstChar (rl g i) = firstChar i := by
  unfold firstChar
  rw [Span.chars_rl]

theorem char_rl (c : Char) (i : Span) : char c (rl g i) = rl g (char c i) := by
  unfold char
  refine bind_eq (firstChar_rl i) fun x => ?_
  cases x with
  | none => rfl
  | some d => exact ite_rl (fun _ => bind_rl (Span.sliceFrom_rl i _) fun _ => rfl) fun _ => rfl

theorem take_rl (n : Nat) (i : Span) : take n (rl g i) = rl g (take n i) := by
  unfold take
  exact ite_rl (fun _ => split_done i n) fun _ => rfl

theorem takeUntil_rl (t : Str) (i : Span) : takeUntil t (rl g i) = rl g (takeUntil t i) := by
  unfold takeUntil
  refine bind_eq (Span.findSubstring_rl i t) fun x => ?_
  cases x with
  | none => rfl
  | some n => exact split_done i n

theorem takeUntilAndConsume_rl (t : Str) (i : Span) : takeUntilAndConsume t (rl g i) = rl g (takeUntilAndConsume t i) := by
  unfold takeUntilAndConsume
  refine bind_eq (Span.findSubstring_rl i t) fun x => ?_
  cases x with
  | none => rfl
  | some n => exact bind_rl (Span.sliceFrom_rl i _) fun _ => bind_rl (Span.slice_rl i _ _) fun _ => rfl

theorem eof_rl (i : Span) : eof (rl g i) = rl g (eof i) := by
  unfold eof
  exact ite_rl (fun _ => rfl) fun _ => rfl

theorem rest_rl (i : Span) : rest (rl g i) = rl g (rest i) := by
  unfold rest
  exact bind_rl (Span.sliceFrom_rl i _) fun _ => rfl

theorem takeTill_rl (p : Char → Bool) (i : Span) : takeTill p (rl g i) = rl g (takeTill p i) := by
  unfold takeTill
  exact bind_rl (Span.splitAtPosition_rl i p) fun _ => rfl

theorem takeWhile_rl (p : Char → Bool) (i : Span) : takeWhile p (rl g i) = rl g (takeWhile p i) := takeTill_rl _ i

theorem recognize_rl {α : Type} [Reloc α] {p : Span → PRes α} (hp : ∀ i, p (rl g i) = rl g (p i)) (i : Span) :
    recognize p (rl g i) = rl g (recognize p i) := by
  unfold recognize
  exact andThen_rl (hp i) fun r _ => bind_eq (Span.offsetTo_rl i r) fun n => rfl

theorem many1Loop_rl {α : Type} [Reloc α] {p : Span → PRes α} (hp : ∀ i, p (rl g i) = rl g (p i)) (n : Nat) :
    ∀ i : Span, many1Loop p n (rl g i) = rl g (many1Loop p n i) := by
  induction n with
  | zero => intro i; rfl
  | succ n ih =>
    intro i
    unfold many1Loop
    refine bind_rl (hp i) fun x => ?_
    rcases x with _ | ⟨_ | _⟩
    · exact ite_rl (fun _ => rfl) fun _ => ih _
    · rfl
    · rfl

theorem many1_rl {α : Type} [Reloc α] {p : Span → PRes α} (hp : ∀ i, p (rl g i) = rl g (p i)) (i : Span) :
    many1 p (rl g i) = rl g (many1 p i) := by
  unfold many1
  refine bind_rl (hp i) fun x => ?_
  rcases x with _ | ⟨_ | _⟩
  · exact many1Loop_rl hp _ _
  · rfl
  · rfl

theorem many0Loop_rl {α : Type} [Reloc α] {p : Span → PRes α} (hp : ∀ i, p (rl g i) = rl g (p i)) (n : Nat) :
    ∀ i : Span, many0Loop p n (rl g i) = rl g (many0Loop p n i) := by
  induction n with
  | zero => intro i; rfl
  | succ n ih =>
    intro i
    unfold many0Loop
    refine bind_rl (hp i) fun x => ?_
    rcases x with _ | ⟨_ | _⟩
    · exact ite_rl (fun _ => rfl) fun _ => ih _
    · rfl
    · rfl

theorem many0_rl {α : Type} [Reloc α] {p : Span → PRes α} (hp : ∀ i, p (rl g i) = rl g (p i)) (i : Span) :
    many0 p (rl g i) = rl g (many0 p i) := many0Loop_rl hp _ i

end Nom

/-! ### Lines -/

open Nom

theorem grabLine_rl (i : Span) : grabLine (rl g i) = rl g (grabLine i) := by
  unfold grabLine
  exact orElse_rl (mapP_rl (takeUntil_rl _ i) fun _ => rfl) <|
    orElse_rl (andThen_rl (takeUntil_rl _ i) fun r l => mapP_rl (tag_rl _ r) fun _ => rfl) <|
    orElse_rl (andThen_rl (takeUntil_rl _ i) fun r l => mapP_rl (tag_rl _ r) fun _ => rfl) <|
    mapP_rl (rest_rl i) fun _ => rfl

theorem whitespace_rl (i : Span) : whitespace (rl g i) = rl g (whitespace i) := takeTill_rl _ i

theorem token_rl (i : Span) : token (rl g i) = rl g (token i) := by
  unfold token
  exact andThen_rl (whitespace_rl i) fun i _ => andThen_rl (takeWhile_rl _ i) fun i t =>
    andThen_rl (whitespace_rl i) fun i _ => rfl

instance : Reloc UnquoteState := ⟨fun g s => ⟨rl g s.tr, rl g s.stopChar, s.nonslash, s.nextPush, s.seen⟩⟩

theorem unquoteLoop_rl (i : Span) (stop : Char → Bool) (crash : Bool) (cs : List (Nat × Char)) :
    ∀ st : UnquoteState, unquoteLoop (rl g i) stop crash cs (rl g st) = rl g (unquoteLoop i stop crash cs st) := by
  induction cs with
  | nil =>
    intro st
    unfold unquoteLoop
    exact ite_rl (fun _ => rfl) fun _ => rfl
  | cons ic rest ih =>
    obtain ⟨idx, ch⟩ := ic
    intro st
    unfold unquoteLoop
    refine ite_rl (fun _ => ?_) fun _ => ih { st with nonslash := if ch = '\\' then st.nonslash else idx + 1 }
    refine bind_rl (Span.slice_rl i _ _) fun sc => ite_rl (fun _ => ?_) fun _ => ?_
    · exact bind_eq rfl fun e => bind_rl (Span.slice_rl i _ _) fun piece => bind_rl (Block.pushAll_rl st.tr piece) fun tr =>
        ih ⟨tr, some sc, _, _, _⟩
    · exact bind_rl (Span.slice_rl i _ _) fun piece => bind_rl (Block.pushAll_rl st.tr piece) fun tr => rfl

theorem takeUntilUnquote_rl [Moves g] (i : Span) (stop : Char → Bool) :
    takeUntilUnquote (rl g i) stop = rl g (takeUntilUnquote i stop) := by
  unfold takeUntilUnquote
  rw [Span.chars_rl]
  have h0 : (⟨⟨(rl g i).parent.sens, []⟩, none, 0, 0, false⟩ : UnquoteState) =
      rl g (⟨⟨i.parent.sens, []⟩, none, 0, 0, false⟩ : UnquoteState) := by
    show UnquoteState.mk ⟨(Block.mapLoc g i.parent).sens, []⟩ _ _ _ _ = UnquoteState.mk (rl g _) _ _ _ _
    rw [Block.mapLoc_sens, Block.rl_mk]
    rfl
  rw [h0]
  refine bind_rl (unquoteLoop_rl i stop _ _ _) fun ⟨st, found⟩ => ?_
  refine bind_rl (p := match found with
    | some idx => .ok (st, some idx)
    | none =>
      if stop (Char.ofNat 0) then do
        let idx := i.length
        let slashes := idx - st.nonslash
        let endIdx := idx - slashes / 2
        let piece ← i.slice st.nextPush endIdx
        let tr ← st.tr.pushAll piece
        if slashes % 2 = 1 then return ({ st with tr := tr, nextPush := idx }, none)
        else do
          let k ← usub idx 1
          return ({ st with tr := tr }, some k)
      else .ok (st, none)) ?_ fun ⟨st, found⟩ => ?_
  · cases found with
    | some idx => rfl
    | none =>
      refine ite_rl (fun _ => ?_) fun _ => rfl
      exact bind_rl (Span.slice_rl i _ _) fun piece => bind_rl (Block.pushAll_rl st.tr piece) fun tr =>
        ite_rl (fun _ => rfl) fun _ => bind_eq rfl fun k => rfl
  · cases found with
    | some idx =>
      refine bind_rl (p := match st.stopChar with
        | some s => .ok s
        | none => i.sliceFrom i.length) ?_ fun sc => ?_
      · obtain ⟨tr, sc, n, np, seen⟩ := st
        cases sc with
        | some s => rfl
        | none => exact Span.sliceFrom_rl i _
      · exact bind_rl (Block.simplify_rl st.tr) fun tr => bind_rl (Span.sliceFrom_rl i _) fun post => rfl
    | none =>
      refine ite_rl (fun _ => bind_rl (Span.toNewBlock_rl i) fun b => rfl) fun _ => ?_
      exact bind_rl (Span.sliceFrom_rl i _) fun piece => bind_rl (Block.pushAll_rl st.tr piece) fun tr =>
        bind_rl (Block.simplify_rl tr) fun tr => rfl

theorem endsWithBackslash_rl (s : Span) : endsWithBackslash (rl g s) = endsWithBackslash s := by
  unfold endsWithBackslash
  rw [Span.chars_rl]

theorem cleanLineEnd_rl (mode : Compliance) (s : Span) (n : Nat) :
    cleanLineEnd mode (rl g s) n = rl g (cleanLineEnd mode s n) := by
  unfold cleanLineEnd
  refine ite_rl (fun _ => ?_) fun _ => bind_eq rfl fun k => rfl
  cases mode with
  | posix => exact bind_eq rfl fun k => rfl
  | gnu =>
    refine ite_rl (fun _ => Span.slice_rl s _ _) fun _ => ?_
    rw [Span.chars_rl]
    exact bind_eq rfl fun cs => rfl

theorem singleton_rl {α : Type} [Reloc α] (a : α) : rl g [a] = [rl g a] := rfl

theorem lineLoop_rl [Moves g] (mode : Compliance) (n : Nat) :
    ∀ (i : Span) (lines : List CRef) (strip addSpace : Bool) (reason : LineEnd),
      lineLoop mode n (rl g i) (rl g lines) strip addSpace reason = rl g (lineLoop mode n i lines strip addSpace reason) := by
  induction n with
  | zero => intros; rfl
  | succ n ih =>
    intro i lines strip addSpace reason
    unfold lineLoop
    have hsp : rl g lines ++ [CRef.space] = rl g (lines ++ [CRef.space]) := by
      rw [rl_append, singleton_rl, space_rl]
    have key : (if reason ≠ .comment then
          if addSpace && !strip then (rl g lines ++ [CRef.space], addSpace) else (rl g lines, true)
        else (rl g lines ++ [CRef.space], addSpace)) =
        rl g (if reason ≠ .comment then
          if addSpace && !strip then (lines ++ [CRef.space], addSpace) else (lines, true)
        else (lines ++ [CRef.space], addSpace)) := by
      rw [hsp]
      exact ite_rl (fun _ => ite_rl (fun _ => rfl) fun _ => rfl) fun _ => rfl
    dsimp only
    rw [key]
    generalize (if reason ≠ .comment then
          if addSpace && !strip then (lines ++ [CRef.space], addSpace) else (lines, true)
        else (lines ++ [CRef.space], addSpace)) = la
    obtain ⟨lines, addSpace⟩ := la
    refine bind_rl (andThen_rl (whitespace_rl i) fun i _ => grabLine_rl i) fun x => ?_
    rcases x with ⟨j, line, reason⟩ | ⟨_ | _⟩
    · refine bind_eq (endsWithBackslash_rl line) fun k => ite_rl (fun _ => ?_) fun _ => ?_
      · refine bind_rl (Span.toContentReference_rl line) fun c => ?_
        refine bind_rl ?_ fun b => rfl
        show Block.new [] (rl g lines ++ rl g [c]) = _
        rw [← rl_append, Block.new_rl]
      · refine bind_rl (cleanLineEnd_rl mode line k) fun line => ite_rl (fun _ => ?_) fun _ => ih _ _ _ _ _
        refine bind_rl (Span.toContentReference_rl line) fun c => ?_
        show lineLoop mode n (rl g j) (rl g lines ++ rl g [c]) _ _ _ = _
        rw [← rl_append]
        exact ih _ _ _ _ _
    · exact bind_rl (Block.new_rl _ _) fun b => rfl
    · rfl

theorem makefileLine_rl [Moves g] (i : Span) (mode : Compliance) (strip : Bool) :
    makefileLine (rl g i) mode strip = rl g (makefileLine i mode strip) := by
  unfold makefileLine
  refine andThen_rl (ite_rl (fun _ => andThen_rl (whitespace_rl i) fun i _ => grabLine_rl i) fun _ => grabLine_rl i)
    fun j ⟨line, reason⟩ => ?_
  refine bind_eq (endsWithBackslash_rl line) fun k => ite_rl (fun _ => ?_) fun _ => ?_
  · exact bind_rl (Span.toContentReference_rl line) fun c => bind_rl (Block.new_rl [] [c]) fun b => rfl
  · refine bind_rl (cleanLineEnd_rl mode line k) fun line => ite_rl (fun _ => ?_) fun _ => lineLoop_rl mode _ _ [] _ _ _
    exact bind_rl (Span.toContentReference_rl line) fun c => lineLoop_rl mode _ j [c] _ _ _

theorem commentLoop_rl (n : Nat) : ∀ (i line : Span) (reason : LineEnd),
    commentLoop n (rl g i) (rl g line) reason = rl g (commentLoop n i line reason) := by
  induction n with
  | zero => intros; rfl
  | succ n ih =>
    intro i line reason
    unfold commentLoop
    rw [endsWithBackslash_rl]
    refine bind_eq rfl fun k => ite_rl (fun _ => ?_) fun _ => rfl
    exact andThen_rl (orElse_rl (mapP_rl (char_rl _ i) fun _ => rfl) rfl) fun i _ => andThen_rl (grabLine_rl i) fun i lr =>
      ih _ _ _

theorem parseComment_rl (i : Span) : parseComment (rl g i) = rl g (parseComment i) := by
  unfold parseComment
  exact andThen_rl (char_rl _ i) fun i _ => andThen_rl (grabLine_rl i) fun i lr => commentLoop_rl _ _ _ _

theorem parseCommentFollowingWhitespace_rl (i : Span) :
    parseCommentFollowingWhitespace (rl g i) = rl g (parseCommentFollowingWhitespace i) := by
  unfold parseCommentFollowingWhitespace
  exact andThen_rl (whitespace_rl i) fun i _ => parseComment_rl i

theorem fileSeqLoop_rl [Moves g] (extra : Str) (n : Nat) : ∀ (i : Span) (out : List Block),
    fileSeqLoop extra n (rl g i) (rl g out) = rl g (fileSeqLoop extra n i out) := by
  induction n with
  | zero => intros; rfl
  | succ n ih =>
    intro i out
    unfold fileSeqLoop
    have hpush : ∀ (b : Block) (j : Span), fileSeqLoop extra n (rl g j) (rl g out ++ [rl g b]) =
        rl g (fileSeqLoop extra n j (out ++ [b])) := by
      intro b j
      rw [← singleton_rl, ← rl_append]
      exact ih _ _
    refine ite_rl (fun _ => ?_) fun _ => rfl
    refine bind_rl (takeUntilUnquote_rl i _) fun x => ?_
    rcases x with ⟨pre, _ | ⟨sc, post⟩⟩
    · refine bind_rl (Span.sliceFrom_rl i _) fun rest => ?_
      rw [Block.len_rl, Block.span_rl]
      exact ite_rl (fun _ => bind_rl (Span.toNewBlock_rl _) fun b => hpush _ _) fun _ => ih _ _
    · show (if Block.len (rl g pre) > 0 then _ else _) = _
      rw [Block.len_rl, Block.span_rl]
      exact ite_rl (fun _ => bind_rl (Span.toNewBlock_rl _) fun b => hpush _ _) fun _ => ih _ _

theorem parseFileSeq_rl [Moves g] (extra : Str) (i : Span) : parseFileSeq extra (rl g i) = rl g (parseFileSeq extra i) := by
  unfold parseFileSeq
  refine bind_rl (whitespace_rl i) fun x => ?_
  rcases x with ⟨j, _⟩ | _
  · exact fileSeqLoop_rl extra _ j []
  · rfl

end Hastur
