import Verif.Spec.Relocate
/-
Every function of the model commutes with changing locations: evaluated text, spans and nom.
-/
namespace Hastur

open Res Span

/-- The change of locations respects the steps along a text, and leaves synthetic locations alone. -/
class Moves (g : Location → Location) : Prop where
  line : ∀ l, g l.advanceLine = (g l).advanceLine
  character : ∀ l, g l.advanceCharacter = (g l).advanceCharacter
  synthetic : g .synthetic = .synthetic

/-- Types whose values contain locations (or not). -/
class Reloc (α : Type) where
  rl : (Location → Location) → α → α

export Reloc (rl)

instance : Reloc Nat := ⟨fun _ x => x⟩
instance : Reloc Bool := ⟨fun _ x => x⟩
instance : Reloc Char := ⟨fun _ x => x⟩
instance : Reloc Unit := ⟨fun _ x => x⟩
instance : Reloc LineEnd := ⟨fun _ x => x⟩
instance : Reloc Location := ⟨fun g x => g x⟩
instance : Reloc LStr := ⟨LStr.mapLoc⟩
instance : Reloc Node := ⟨Node.mapLoc⟩
instance : Reloc CRef := ⟨CRef.mapLoc⟩
instance : Reloc Block := ⟨Block.mapLoc⟩
instance : Reloc Ast := ⟨Ast.mapLoc⟩
instance : Reloc Span := ⟨fun g s => ⟨Block.mapLoc g s.parent, s.start, s.offset, s.length⟩⟩
instance {α : Type} [Reloc α] : Reloc (Option α) := ⟨fun g x => x.map (rl g)⟩
instance {α : Type} [Reloc α] : Reloc (List α) := ⟨fun g x => x.map (rl g)⟩
instance {α β : Type} [Reloc α] [Reloc β] : Reloc (α × β) := ⟨fun g x => (rl g x.1, rl g x.2)⟩
instance {α : Type} [Reloc α] : Reloc (Res α) := ⟨fun g x =>
  match x with
  | .ok a => .ok (rl g a)
  | .panic p => .panic p
  | .fuel => .fuel⟩
instance {α : Type} [Reloc α] : Reloc (IRes α) := ⟨fun g x =>
  match x with
  | .done i a => .done (rl g i) (rl g a)
  | .err e => .err e⟩

variable {g : Location → Location}

theorem bind_rl {α β : Type} [Reloc α] [Reloc β] {p p' : Res α} {f f' : α → Res β} (hp : p' = rl g p)
    (hf : ∀ a, f' (rl g a) = rl g (f a)) : (p' >>= f') = rl g (p >>= f) := by
  subst hp
  cases p
  · exact hf _
  · rfl
  · rfl

theorem bind_eq {α β : Type} [Reloc β] {p p' : Res α} {f f' : α → Res β} (hp : p' = p)
    (hf : ∀ a, f' a = rl g (f a)) : (p' >>= f') = rl g (p >>= f) := by
  subst hp
  cases p'
  · exact hf _
  · rfl
  · rfl

theorem map_rl {α β : Type} [Reloc α] [Reloc β] {p p' : Res α} {f f' : α → β} (hp : p' = rl g p)
    (hf : ∀ a, f' (rl g a) = rl g (f a)) : f' <$> p' = rl g (f <$> p) := by
  subst hp
  cases p
  · exact congrArg Res.ok (hf _)
  · rfl
  · rfl

theorem andThen_rl {α β : Type} [Reloc α] [Reloc β] {p p' : PRes α} {f f' : Span → α → PRes β} (hp : p' = rl g p)
    (hf : ∀ i a, f' (rl g i) (rl g a) = rl g (f i a)) : andThen p' f' = rl g (andThen p f) := by
  subst hp
  rcases p with ⟨_ | _⟩ | _ | _
  · exact hf _ _
  · rfl
  · rfl
  · rfl

theorem mapP_rl {α β : Type} [Reloc α] [Reloc β] {p p' : PRes α} {f f' : α → β} (hp : p' = rl g p)
    (hf : ∀ a, f' (rl g a) = rl g (f a)) : mapP f' p' = rl g (mapP f p) :=
  andThen_rl hp fun i a => by rw [hf]; rfl

theorem orElse_rl {α : Type} [Reloc α] {p p' q q' : PRes α} (hp : p' = rl g p) (hq : q' = rl g q) :
    orElse p' q' = rl g (orElse p q) := by
  subst hp
  rcases p with ⟨_ | ⟨_ | _⟩⟩ | _ | _
  · rfl
  · exact hq
  · rfl
  · rfl
  · rfl

theorem returnError_rl {α : Type} [Reloc α] {p p' : PRes α} (hp : p' = rl g p) :
    returnError p' = rl g (returnError p) := by
  subst hp
  rcases p with ⟨_ | ⟨_ | _⟩⟩ | _ | _ <;> rfl

@[simp] theorem rl_str (s : List Char) : rl g s = s := by
  show s.map (fun c => c) = s
  simp

/-! ### Evaluated text -/

theorem CRef.mapLocs_eq : ∀ cs : List CRef, CRef.mapLocs g cs = cs.map (CRef.mapLoc g)
  | [] => by simp [CRef.mapLocs]
  | c :: cs => by simp [CRef.mapLocs, CRef.mapLocs_eq cs]

@[simp] theorem Block.mapLoc_sens (b : Block) : (Block.mapLoc g b).sens = b.sens := by
  obtain ⟨s, c⟩ := b
  simp [Block.mapLoc]

@[simp] theorem Block.mapLoc_content (b : Block) : (Block.mapLoc g b).content = b.content.map (CRef.mapLoc g) := by
  obtain ⟨s, c⟩ := b
  simp [Block.mapLoc, CRef.mapLocs_eq]

theorem Block.mapLoc_mk (s : Sens) (c : List CRef) : Block.mapLoc g ⟨s, c⟩ = ⟨s, c.map (CRef.mapLoc g)⟩ := by
  simp [Block.mapLoc, CRef.mapLocs_eq]

@[simp] theorem CRef.mapLoc_offset (c : CRef) : (CRef.mapLoc g c).offset = c.offset := by
  obtain ⟨o, l, n⟩ := c
  simp [CRef.mapLoc]

@[simp] theorem CRef.mapLoc_length (c : CRef) : (CRef.mapLoc g c).length = c.length := by
  obtain ⟨o, l, n⟩ := c
  simp [CRef.mapLoc]

@[simp] theorem CRef.mapLoc_node (c : CRef) : (CRef.mapLoc g c).node = Node.mapLoc g c.node := by
  obtain ⟨o, l, n⟩ := c
  simp [CRef.mapLoc]

theorem CRef.mapLoc_mk (o l : Nat) (n : Node) : CRef.mapLoc g ⟨o, l, n⟩ = ⟨o, l, Node.mapLoc g n⟩ := by
  simp [CRef.mapLoc]

theorem Block.len_rl (b : Block) : Block.len (rl g b) = Block.len b := by
  show Block.len (Block.mapLoc g b) = _
  simp [Block.len, Function.comp_def]

theorem Node.len_rl (n : Node) : Node.len (rl g n) = Node.len n := by
  show Node.len (Node.mapLoc g n) = _
  cases n with
  | constant s => simp [Node.mapLoc, Node.len, LStr.mapLoc, LStr.len]
  | _ => simp only [Node.mapLoc, Node.len]; exact Block.len_rl _

theorem lengths_map (cs : List CRef) : ((cs.map (CRef.mapLoc g)).map (·.length)) = cs.map (·.length) := by
  simp [Function.comp_def]

mutual
theorem Node.chars_mapLoc : ∀ n : Node, Node.chars (Node.mapLoc g n) = Node.chars n
  | .constant s => by simp [Node.mapLoc, Node.chars, LStr.mapLoc]
  | .concat v => by simp only [Node.mapLoc, Node.chars]; exact Block.chars_mapLoc v
  | .varRef _ v => by simp only [Node.mapLoc, Node.chars]; exact Block.chars_mapLoc v
  | .subRef _ _ _ v => by simp only [Node.mapLoc, Node.chars]; exact Block.chars_mapLoc v
  | .evaluated v => by simp only [Node.mapLoc, Node.chars]; exact Block.chars_mapLoc v
theorem Block.chars_mapLoc : ∀ b : BlockOf Node, Block.chars (Block.mapLoc g b) = Block.chars b
  | ⟨_, content⟩ => by
    simp only [Block.mapLoc, Block.chars]
    rw [CRef.charsList_mapLocs content, CRef.mapLocs_eq, lengths_map]
theorem CRef.charsList_mapLocs : ∀ cs : List (CRefOf Node), CRef.charsList (CRef.mapLocs g cs) = CRef.charsList cs
  | [] => by simp [CRef.mapLocs]
  | c :: cs => by
    simp only [CRef.mapLocs, CRef.charsList]
    rw [CRef.chars_mapLoc c, CRef.charsList_mapLocs cs]
theorem CRef.chars_mapLoc : ∀ c : CRefOf Node, CRef.chars (CRef.mapLoc g c) = CRef.chars c
  | ⟨_, _, node⟩ => by
    simp only [CRef.mapLoc, CRef.chars]
    rw [Node.chars_mapLoc node]
end

theorem Block.intoString_rl (b : Block) : Block.intoString (rl g b) = Block.intoString b := by
  show Block.intoString (Block.mapLoc g b) = _
  simp only [Block.intoString, Block.mapLoc_content, ← CRef.mapLocs_eq, CRef.charsList_mapLocs]

theorem LStr.len_rl (s : LStr) : (rl g s).len = s.len := rfl

variable [Moves g]

omit [Moves g] in
theorem ite_rl {α : Type} [Reloc α] {c : Prop} [Decidable c] {a a' b b' : α} (h1 : c → a' = rl g a)
    (h2 : ¬ c → b' = rl g b) : (if c then a' else b') = rl g (if c then a else b) := by
  by_cases h : c
  · rw [if_pos h, if_pos h]; exact h1 h
  · rw [if_neg h, if_neg h]; exact h2 h

theorem advance_rl (l : Location) (c : Char) : g (l.advance c) = (g l).advance c := by
  unfold Location.advance
  split
  · exact Moves.line l
  · exact Moves.character l

theorem foldl_advance_rl (s : Str) : ∀ l : Location, g (s.foldl Location.advance l) = s.foldl Location.advance (g l) := by
  induction s with
  | nil => intro l; rfl
  | cons c s ih => intro l; rw [List.foldl_cons, ih, advance_rl (g := g)]; rfl

theorem LStr.slice_rl (s : LStr) (a b : Nat) : (rl g s).slice a b = rl g (s.slice a b) := by
  unfold LStr.slice
  refine bind_eq rfl fun _ => bind_eq rfl fun _ => bind_eq rfl fun skipped => bind_eq rfl fun rest => bind_eq rfl fun taken => ?_
  show Res.ok (LStr.mk _ _) = Res.ok (LStr.mk _ _)
  rw [foldl_advance_rl (g := g)]
  rfl

instance : Reloc SStream := ⟨fun g s => ⟨rl g s.items, s.crash⟩⟩

omit [Moves g] in
theorem SStream.cons_rl (t : LStr) (s : SStream) : SStream.cons (rl g t) (rl g s) = rl g (SStream.cons t s) := rfl

omit [Moves g] in
theorem segMatch_rl {x x' : Res LStr} {k k' : LStr → SStream} (hx : x' = rl g x) (hk : ∀ t, k' (rl g t) = rl g (k t)) :
    (match (generalizing := false) x' with
      | .ok t => k' t
      | _ => ⟨[], true⟩) =
    rl g (match (generalizing := false) x with
      | .ok t => k t
      | _ => (⟨[], true⟩ : SStream)) := by
  subst hx
  cases x
  · exact hk _
  · rfl
  · rfl

theorem refSegs_rl (ts : List LStr) (crash : Bool) :
    ∀ o l : Nat, refSegs o l (rl g ts) crash = rl g (refSegs o l ts crash) := by
  induction ts with
  | nil => intro o l; cases l <;> (unfold refSegs; rfl)
  | cons t ts ih =>
    intro o l
    cases l with
    | zero => unfold refSegs; rfl
    | succ l =>
      show refSegs o (l + 1) (rl g t :: rl g ts) crash = _
      unfold refSegs
      refine ite_rl (fun _ => ih _ _) fun _ => segMatch_rl (LStr.slice_rl t _ _) fun t1 => ?_
      refine ite_rl (fun _ => segMatch_rl (LStr.slice_rl t1 _ _) fun t2 => ?_) fun _ => ?_
      · rw [LStr.len_rl, ih, SStream.cons_rl]
      · rw [LStr.len_rl, ih, SStream.cons_rl]

theorem spanSegs_rl (ts : List LStr) (crash : Bool) :
    ∀ o l : Nat, spanSegs o l (rl g ts) crash = rl g (spanSegs o l ts crash) := by
  induction ts with
  | nil => intro o l; cases l <;> (unfold spanSegs; rfl)
  | cons t ts ih =>
    intro o l
    cases l with
    | zero => unfold spanSegs; rfl
    | succ l =>
      show spanSegs o (l + 1) (rl g t :: rl g ts) crash = _
      unfold spanSegs
      refine ite_rl (fun _ => ih _ _) fun _ => segMatch_rl (ite_rl (fun _ => LStr.slice_rl t _ _) fun _ => rfl) fun t1 => ?_
      refine segMatch_rl (ite_rl (fun _ => LStr.slice_rl t1 _ _) fun _ => rfl) fun t2 => ?_
      rw [LStr.len_rl, ih, SStream.cons_rl]

omit [Moves g] in
theorem SStream.append_rl (a b : SStream) : SStream.append (rl g a) (rl g b) = rl g (SStream.append a b) := by
  unfold SStream.append
  show (if a.crash = true then _ else _) = _
  split
  · rfl
  · show SStream.mk (rl g a.items ++ rl g b.items) _ = SStream.mk (rl g (a.items ++ b.items)) _
    congr 1
    exact List.map_append.symm

mutual
theorem Node.segments_mapLoc : ∀ n : Node, Node.segments (Node.mapLoc g n) = rl g (Node.segments n)
  | .constant s => by simp only [Node.mapLoc, Node.segments]; rfl
  | .concat v => by simp only [Node.mapLoc, Node.segments]; exact Block.segments_mapLoc v
  | .varRef _ v => by simp only [Node.mapLoc, Node.segments]; exact Block.segments_mapLoc v
  | .subRef _ _ _ v => by simp only [Node.mapLoc, Node.segments]; exact Block.segments_mapLoc v
  | .evaluated v => by simp only [Node.mapLoc, Node.segments]; exact Block.segments_mapLoc v
theorem Block.segments_mapLoc : ∀ b : BlockOf Node, Block.segments (Block.mapLoc g b) = rl g (Block.segments b)
  | ⟨_, content⟩ => by
    simp only [Block.mapLoc, Block.segments]
    rw [CRef.segmentsList_mapLocs content, CRef.mapLocs_eq, lengths_map]
    exact spanSegs_rl _ _ _ _
theorem CRef.segmentsList_mapLocs : ∀ cs : List (CRefOf Node),
    CRef.segmentsList (CRef.mapLocs g cs) = rl g (CRef.segmentsList cs)
  | [] => by simp only [CRef.mapLocs, CRef.segmentsList]; rfl
  | c :: cs => by
    simp only [CRef.mapLocs, CRef.segmentsList]
    rw [CRef.segments_mapLoc c, CRef.segmentsList_mapLocs cs, SStream.append_rl]
theorem CRef.segments_mapLoc : ∀ c : CRefOf Node, CRef.segments (CRef.mapLoc g c) = rl g (CRef.segments c)
  | ⟨_, _, node⟩ => by
    simp only [CRef.mapLoc, CRef.segments]
    rw [Node.segments_mapLoc node]
    exact refSegs_rl _ _ _ _
end

omit [Moves g] in
theorem CRef.ofNode_rl (n : Node) : CRef.ofNode (rl g n) = rl g (CRef.ofNode n) := by
  show CRef.ofNode (rl g n) = CRef.mapLoc g ⟨0, n.len, n⟩
  unfold CRef.ofNode
  rw [CRef.mapLoc_mk, Node.len_rl]
  rfl

omit [Moves g] in
theorem dropRefs_rl (cs : List CRef) : ∀ o : Nat, dropRefs (rl g cs) o = rl g (dropRefs cs o) := by
  induction cs with
  | nil => intro o; rfl
  | cons c cs ih =>
    intro o
    show dropRefs (CRef.mapLoc g c :: rl g cs) o = _
    unfold dropRefs
    rw [CRef.mapLoc_length]
    split
    · exact ih _
    · obtain ⟨o', l, n⟩ := c
      simp only [CRef.mapLoc]
      show Res.ok _ = Res.ok (CRef.mapLoc g _ :: rl g cs)
      simp only [CRef.mapLoc]

omit [Moves g] in
theorem takeRefs_rl (cs : List CRef) : ∀ o : Nat, takeRefs (rl g cs) o = rl g (takeRefs cs o) := by
  induction cs with
  | nil => intro o; rfl
  | cons c cs ih =>
    intro o
    show takeRefs (CRef.mapLoc g c :: rl g cs) o = _
    unfold takeRefs
    rw [CRef.mapLoc_length]
    split
    · obtain ⟨o', l, n⟩ := c
      simp only [CRef.mapLoc]
      show Res.ok _ = Res.ok [CRef.mapLoc g _]
      simp only [CRef.mapLoc]
    · exact map_rl (ih _) fun _ => rfl

omit [Moves g] in
mutual
theorem Node.depth_mapLoc : ∀ n : Node, Node.depth (Node.mapLoc g n) = Node.depth n
  | .constant s => by simp [Node.mapLoc, Node.depth]
  | .concat v => by simp only [Node.mapLoc, Node.depth]; rw [Block.depth_mapLoc v]
  | .varRef _ v => by simp only [Node.mapLoc, Node.depth]; rw [Block.depth_mapLoc v]
  | .subRef _ _ _ v => by simp only [Node.mapLoc, Node.depth]; rw [Block.depth_mapLoc v]
  | .evaluated v => by simp only [Node.mapLoc, Node.depth]; rw [Block.depth_mapLoc v]
theorem Block.depth_mapLoc : ∀ b : BlockOf Node, Block.depth (Block.mapLoc g b) = Block.depth b
  | ⟨_, content⟩ => by
    simp only [Block.mapLoc, Block.depth]
    rw [CRef.depthList_mapLocs content]
theorem CRef.depthList_mapLocs : ∀ cs : List (CRefOf Node), CRef.depthList (CRef.mapLocs g cs) = CRef.depthList cs
  | [] => by simp [CRef.mapLocs]
  | c :: cs => by
    simp only [CRef.mapLocs, CRef.depthList]
    rw [CRef.depth_mapLoc c, CRef.depthList_mapLocs cs]
theorem CRef.depth_mapLoc : ∀ c : CRefOf Node, CRef.depth (CRef.mapLoc g c) = CRef.depth c
  | ⟨_, _, node⟩ => by
    simp only [CRef.mapLoc, CRef.depth]
    rw [Node.depth_mapLoc node]
end

omit [Moves g] in
theorem simplifyList_rl {f : CRef → Res CRef} (hf : ∀ c, f (rl g c) = rl g (f c)) (cs : List CRef) :
    simplifyList f (rl g cs) = rl g (simplifyList f cs) := by
  induction cs with
  | nil => rfl
  | cons c cs ih =>
    show simplifyList f (CRef.mapLoc g c :: rl g cs) = _
    unfold simplifyList
    rw [CRef.mapLoc_length]
    split
    · exact ih
    · exact bind_rl (hf c) fun c' => bind_rl ih fun cs' => rfl

theorem simplifyRef_rl (d : Nat) : ∀ c : CRef, simplifyRef d (rl g c) = rl g (simplifyRef d c) := by
  induction d with
  | zero =>
    rintro ⟨o, l, n⟩
    show simplifyRef 0 (CRef.mapLoc g ⟨o, l, n⟩) = _
    rw [CRef.mapLoc_mk]
    cases n with
    | constant s =>
      simp only [Node.mapLoc, simplifyRef]
      refine bind_rl (LStr.slice_rl s o l) fun s' => ?_
      show Res.ok _ = Res.ok (CRef.mapLoc g _)
      simp only [CRef.mapLoc, Node.mapLoc]
      rfl
    | concat b => simp only [Node.mapLoc, simplifyRef]; rfl
    | varRef a b => simp only [Node.mapLoc, simplifyRef]; show _ = Res.ok (CRef.mapLoc g _); simp only [CRef.mapLoc, Node.mapLoc]
    | subRef a b c d => simp only [Node.mapLoc, simplifyRef]; show _ = Res.ok (CRef.mapLoc g _); simp only [CRef.mapLoc, Node.mapLoc]
    | evaluated b => simp only [Node.mapLoc, simplifyRef]; show _ = Res.ok (CRef.mapLoc g _); simp only [CRef.mapLoc, Node.mapLoc]
  | succ d ih =>
    rintro ⟨o, l, n⟩
    show simplifyRef (d + 1) (CRef.mapLoc g ⟨o, l, n⟩) = _
    rw [CRef.mapLoc_mk]
    cases n with
    | constant s =>
      simp only [Node.mapLoc, simplifyRef]
      refine bind_rl (LStr.slice_rl s o l) fun s' => ?_
      show Res.ok _ = Res.ok (CRef.mapLoc g _)
      simp only [CRef.mapLoc, Node.mapLoc]
      rfl
    | concat b =>
      obtain ⟨sens, content⟩ := b
      simp only [Node.mapLoc, simplifyRef, Block.mapLoc_mk]
      refine bind_rl (dropRefs_rl content o) fun k => bind_rl (takeRefs_rl k l) fun k =>
        bind_rl (simplifyList_rl ih k) fun k => ?_
      show Res.ok _ = Res.ok (CRef.mapLoc g _)
      simp only [CRef.mapLoc, Node.mapLoc, Block.mapLoc_mk]
      rfl
    | varRef a b => simp only [Node.mapLoc, simplifyRef]; show _ = Res.ok (CRef.mapLoc g _); simp only [CRef.mapLoc, Node.mapLoc]
    | subRef a b c d => simp only [Node.mapLoc, simplifyRef]; show _ = Res.ok (CRef.mapLoc g _); simp only [CRef.mapLoc, Node.mapLoc]
    | evaluated b => simp only [Node.mapLoc, simplifyRef]; show _ = Res.ok (CRef.mapLoc g _); simp only [CRef.mapLoc, Node.mapLoc]

omit [Moves g] in
theorem Block.rl_mk (s : Sens) (c : List CRef) : (rl g (⟨s, c⟩ : Block)) = ⟨s, rl g c⟩ := Block.mapLoc_mk s c

omit [Moves g] in
theorem rl_append {α : Type} [Reloc α] (a b : List α) : rl g (a ++ b) = rl g a ++ rl g b := List.map_append

theorem Block.new_rl (s : Sens) (c : List CRef) : Block.new s (rl g c) = rl g (Block.new s c) := by
  unfold Block.new Block.simplify
  have hd : CRef.depthList (rl g c) = CRef.depthList c := by
    rw [← CRef.depthList_mapLocs (g := g) c, CRef.mapLocs_eq]
    rfl
  rw [hd]
  exact bind_rl (simplifyList_rl (simplifyRef_rl _) c) fun k => congrArg Res.ok (Block.rl_mk _ _).symm

theorem Block.simplify_rl (b : Block) : Block.simplify (rl g b) = rl g (Block.simplify b) := by
  obtain ⟨s, c⟩ := b
  rw [Block.rl_mk]
  exact Block.new_rl s c

theorem synthetic_rl (s : Str) : rl g (LStr.synthetic s) = LStr.synthetic s := by
  show LStr.mk (g .synthetic) s = _
  rw [Moves.synthetic (g := g)]
  rfl

theorem space_rl : rl g CRef.space = CRef.space := by
  show CRef.mapLoc g _ = _
  unfold CRef.space
  simp only [CRef.mapLoc, Node.mapLoc]
  exact congrArg (fun s => (⟨0, 1, .constant s⟩ : CRef)) (synthetic_rl _)

theorem newline_rl : rl g CRef.newline = CRef.newline := by
  show CRef.mapLoc g _ = _
  unfold CRef.newline
  simp only [CRef.mapLoc, Node.mapLoc]
  exact congrArg (fun s => (⟨0, 1, .constant s⟩ : CRef)) (synthetic_rl _)

theorem semicolon_rl : rl g CRef.semicolon = CRef.semicolon := by
  show CRef.mapLoc g _ = _
  unfold CRef.semicolon
  simp only [CRef.mapLoc, Node.mapLoc]
  exact congrArg (fun s => (⟨0, 1, .constant s⟩ : CRef)) (synthetic_rl _)

omit [Moves g] in
theorem Block.push_rl (b : Block) (c : CRef) : Block.push (rl g b) (rl g c) = rl g (Block.push b c) := by
  obtain ⟨s, cs⟩ := b
  unfold Block.push
  rw [Block.rl_mk, Block.rl_mk, rl_append]
  rfl

omit [Moves g] in
theorem Block.empty_rl : rl g Block.empty = Block.empty := by
  unfold Block.empty
  rw [Block.rl_mk]
  rfl

end Hastur
