import Verif.Proofs.RelocateDb
/-
Evaluating and reading makefiles in states that mean the same, with text that only differs in its locations.
-/
namespace Hastur

open Res Span

variable {g : Location → Location}

/-- Equal up to locations. -/
abbrev Like {α : Type} [Reloc α] (g : Location → Location) (x x' : α) : Prop := rl g x = rl g x'

/-- A value and a state. -/
abbrev Out {α : Type} [Reloc α] (g : Location → Location) (x x' : α × St) : Prop := Like g x.1 x'.1 ∧ StRel g x.2 x'.2

/-- A value, a parser state and a state. -/
abbrev Out3 {α β : Type} [Reloc α] [Reloc β] (g : Location → Location) (x x' : α × β × St) : Prop :=
  Like g x.1 x'.1 ∧ Like g x.2.1 x'.2.1 ∧ StRel g x.2.2 x'.2.2

instance : Reloc VariableName := ⟨fun _ x => x⟩
instance {ε α : Type} [Reloc α] : Reloc (Except ε α) := ⟨fun g x =>
  match x with
  | .ok a => .ok (rl g a)
  | .error e => .error e⟩
instance : Reloc VarActionKind := ⟨fun g x =>
  match x with
  | .define p => .define (rl g p)
  | .append a => .append (rl g a)⟩
instance : Reloc VarAction := ⟨fun g x => ⟨x.name, x.modifiers, rl g x.action⟩⟩
instance : Reloc PState := ⟨fun g x => ⟨x.conditionals, x.ignoring, rl g x.currentRule, x.currentDefine⟩⟩
instance : Reloc TargetAction := ⟨fun g x =>
  match x with
  | .noAction => .noAction
  | .newRule t d c i => .newRule (rl g t) (rl g d) c (rl g i)
  | .targetVariable t a => .targetVariable (rl g t) (rl g a)⟩
instance : Reloc WordLoop := ⟨fun g x =>
  match x with
  | .err e => .err e
  | .noAction => .noAction
  | .finished p a l s m => .finished (rl g p) (rl g a) (rl g l) (rl g s) m⟩

theorem rl_sens (s : Sens) : rl g s = s := by
  show s.map (fun x => x) = s
  exact List.map_id' s

/-! ### Rules -/

theorem SameOutcome.bindP {α β : Type} [Reloc α] {S : β → β → Prop} {p p' : PRes α} {f f' : IRes α → Res β}
    (hp : Like g p p')
    (hd : ∀ i i' a a', Like g i i' → Like g a a' → SameOutcome S (f (.done i a)) (f' (.done i' a')))
    (he : ∀ e, SameOutcome S (f (.err e)) (f' (.err e))) : SameOutcome S (p >>= f) (p' >>= f') := by
  refine SameOutcome.bind (SameOutcome.of_rl hp) ?_
  intro x x' h
  cases x <;> cases x'
  · injection h with h1 h2
    exact hd _ _ _ _ h1 h2
  · cases h
  · cases h
  · injection h with h
    subst h
    exact he _

theorem bindLike {α β : Type} [Reloc α] [Reloc β] {p p' : Res α} {f f' : α → Res β} (hp : Like g p p')
    (hf : ∀ a a', Like g a a' → Like g (f a) (f' a')) : Like g (p >>= f) (p' >>= f') := by
  cases p <;> cases p'
  · exact hf _ _ (Res.ok.inj hp)
  · cases hp
  · cases hp
  · cases hp
  · exact congrArg Res.panic (Res.panic.inj hp)
  · cases hp
  · cases hp
  · cases hp
  · rfl

theorem SameOutcome.bindR {α β : Type} [Reloc α] {S : β → β → Prop} {p p' : Res α} {f f' : α → Res β}
    (hp : Like g p p') (hf : ∀ a a', Like g a a' → SameOutcome S (f a) (f' a')) : SameOutcome S (p >>= f) (p' >>= f') :=
  SameOutcome.bind (SameOutcome.of_rl hp) hf

theorem SameOutcome.bindEq {α β : Type} {S : β → β → Prop} {p p' : Res α} {f f' : α → Res β}
    (hp : p = p') (hf : ∀ a, SameOutcome S (f a) (f' a)) : SameOutcome S (p >>= f) (p' >>= f') := by
  refine SameOutcome.bind (SameOutcome.eq hp) ?_
  rintro a _ rfl
  exact hf a

theorem SameOutcome.bindO {α β : Type} [Reloc α] {S : β → β → Prop} {p p' : Res (α × St)} {f f' : α × St → Res β}
    (hp : SameOutcome (Out g) p p')
    (hf : ∀ a a' st st', Like g a a' → StRel g st st' → SameOutcome S (f (a, st)) (f' (a', st'))) :
    SameOutcome S (p >>= f) (p' >>= f') :=
  SameOutcome.bind hp fun _ _ h => hf _ _ _ _ h.1 h.2

/-- A parser's result with a state. -/
theorem SameOutcome.bindPO {α β : Type} [Reloc α] {S : β → β → Prop} {p p' : Res (IRes α × St)} {f f' : IRes α × St → Res β}
    (hp : SameOutcome (Out g) p p')
    (hd : ∀ i i' a a' st st', Like g i i' → Like g a a' → StRel g st st' →
      SameOutcome S (f (.done i a, st)) (f' (.done i' a', st')))
    (he : ∀ e st st', StRel g st st' → SameOutcome S (f (.err e, st)) (f' (.err e, st'))) :
    SameOutcome S (p >>= f) (p' >>= f') := by
  refine SameOutcome.bindO hp ?_
  intro x x' st st' h hst
  cases x <;> cases x'
  · injection h with h1 h2
    exact hd _ _ _ _ _ _ h1 h2 hst
  · cases h
  · cases h
  · injection h with h
    subst h
    exact he _ _ _ hst

/-- A result that may be an error, with a state. -/
theorem SameOutcome.bindE {ε α β : Type} [Reloc α] {S : β → β → Prop} {p p' : Res (Except ε α × St)}
    {f f' : Except ε α × St → Res β} (hp : SameOutcome (Out g) p p')
    (hd : ∀ a a' st st', Like g a a' → StRel g st st' → SameOutcome S (f (.ok a, st)) (f' (.ok a', st')))
    (he : ∀ e st st', StRel g st st' → SameOutcome S (f (.error e, st)) (f' (.error e, st'))) :
    SameOutcome S (p >>= f) (p' >>= f') := by
  refine SameOutcome.bindO hp ?_
  intro x x' st st' h hst
  cases x <;> cases x'
  · injection h with h
    subst h
    exact he _ _ _ hst
  · cases h
  · cases h
  · injection h with h
    exact hd _ _ _ _ h hst

/-- A value with an optional one. -/
theorem SameOutcome.bindOpt {α β γ : Type} [Reloc α] [Reloc γ] {S : β → β → Prop} {p p' : Res (α × Option γ)}
    {f f' : α × Option γ → Res β} (hp : Like g p p')
    (hs : ∀ a a' c c', Like g a a' → Like g c c' → SameOutcome S (f (a, some c)) (f' (a', some c')))
    (hn : ∀ a a', Like g a a' → SameOutcome S (f (a, none)) (f' (a', none))) :
    SameOutcome S (p >>= f) (p' >>= f') := by
  refine SameOutcome.bindR hp ?_
  rintro ⟨a, c⟩ ⟨a', c'⟩ h
  injection h with h1 h2
  cases c <;> cases c'
  · exact hn _ _ h1
  · cases h2
  · cases h2
  · injection h2 with h2
    exact hs _ _ _ _ h1 h2

theorem SameOutcome.ite {α : Type} {S : α → α → Prop} {c c' : Prop} [Decidable c] [Decidable c'] {a a' b b' : Res α}
    (hc : c ↔ c') (ha : SameOutcome S a a') (hb : SameOutcome S b b') :
    SameOutcome S (if c then a else b) (if c' then a' else b') := by
  by_cases h : c
  · rw [if_pos h, if_pos (hc.mp h)]
    exact ha
  · rw [if_neg h, if_neg (fun x => h (hc.mpr x))]
    exact hb

theorem Like.some_inj {α : Type} [Reloc α] {a a' : α} (h : Like g (some a) (some a')) : Like g a a' := Option.some.inj h

theorem Like.some {α : Type} [Reloc α] {a a' : α} (h : Like g a a') : Like g (some a) (some a') := congrArg Option.some h

theorem Like.pair {α β : Type} [Reloc α] [Reloc β] {a a' : α} {b b' : β} (h : Like g a a') (h' : Like g b b') :
    Like g (a, b) (a', b') := by
  show (rl g a, rl g b) = (rl g a', rl g b')
  rw [h, h']

theorem Like.pair_inj {α β : Type} [Reloc α] [Reloc β] {a a' : α} {b b' : β} (h : Like g (a, b) (a', b')) :
    Like g a a' ∧ Like g b b' := by
  injection h with h1 h2
  exact ⟨h1, h2⟩

theorem Like.done {α : Type} [Reloc α] {i i' : Span} {a a' : α} (h : Like g i i') (h' : Like g a a') :
    Like g (IRes.done i a) (IRes.done i' a') := by
  show IRes.done (rl g i) (rl g a) = IRes.done (rl g i') (rl g a')
  rw [h, h']

theorem Like.ok {ε α : Type} [Reloc α] {a a' : α} (h : Like g a a') : Like g (Except.ok a : Except ε α) (Except.ok a') :=
  congrArg Except.ok h

theorem Like.append {α : Type} [Reloc α] {a a' b b' : List α} (h : Like g a a') (h' : Like g b b') :
    Like g (a ++ b) (a' ++ b') := by
  show rl g (a ++ b) = rl g (a' ++ b')
  rw [rl_append, rl_append, h, h']

theorem Like.one {α : Type} [Reloc α] {a a' : α} (h : Like g a a') : Like g [a] [a'] := rl_cons h rfl

theorem Like.isSome {α : Type} [Reloc α] {a a' : Option α} (h : Like g a a') : a.isSome = a'.isSome := by
  cases a <;> cases a' <;> first | rfl | cases h

theorem Like.sens {s s' : Sens} (h : Like g s s') : s = s' := by
  have h' : rl g s = rl g s' := h
  rwa [rl_sens, rl_sens] at h'

theorem Like.blockSens {b b' : Block} (h : Like g b b') : b.sens = b'.sens := rl_const (f := BlockOf.sens) Block.rl_sens h

theorem Like.blockContent {b b' : Block} (h : Like g b b') : Like g b.content b'.content :=
  rl_congr (f := BlockOf.content) Block.rl_content h

theorem Like.blockLen {b b' : Block} (h : Like g b b') : b.len = b'.len := rl_const (f := Block.len) Block.len_rl h

theorem Like.span {b b' : Block} (h : Like g b b') : Like g b.span b'.span := rl_congr (f := Block.span) Block.span_rl h

theorem Like.spanLen {i i' : Span} (h : Like g i i') : i.length = i'.length := rl_const (f := Span.length) Span.length_rl h

theorem Like.node {n n' : Node} (h : Like g n n') : Like g (CRef.ofNode n) (CRef.ofNode n') :=
  rl_congr (f := CRef.ofNode) CRef.ofNode_rl h

variable [Moves g]

omit [Moves g] in
theorem Like.slice {i i' : Span} (h : Like g i i') (n : Nat) : Like g (i.sliceTo n) (i'.sliceTo n) :=
  rl_congr (f := fun i => Span.sliceTo i n) (fun i => Span.sliceTo_rl i n) h

omit [Moves g] in
theorem Like.sliceFrom {i i' : Span} (h : Like g i i') (n : Nat) : Like g (i.sliceFrom n) (i'.sliceFrom n) :=
  rl_congr (f := fun i => Span.sliceFrom i n) (fun i => Span.sliceFrom_rl i n) h

theorem Like.newBlock {i i' : Span} (h : Like g i i') : Like g i.toNewBlock i'.toNewBlock :=
  rl_congr (f := Span.toNewBlock) Span.toNewBlock_rl h

theorem Like.pushAll {b b' : Block} {i i' : Span} (h : Like g b b') (h' : Like g i i') :
    Like g (b.pushAll i) (b'.pushAll i') := by
  show rl g (b.pushAll i) = rl g (b'.pushAll i')
  rw [← Block.pushAll_rl, ← Block.pushAll_rl, h, h']

omit [Moves g] in
theorem Like.push {b b' : Block} {c c' : CRef} (h : Like g b b') (h' : Like g c c') : Like g (b.push c) (b'.push c') := by
  show rl g (b.push c) = rl g (b'.push c')
  rw [← Block.push_rl, ← Block.push_rl, h, h']

theorem Like.blockNew (s : Sens) {c c' : List CRef} (h : Like g c c') : Like g (Block.new s c) (Block.new s c') :=
  rl_congr (f := Block.new s) (Block.new_rl s) h

theorem Like.unquote {i i' : Span} (h : Like g i i') (p : Char → Bool) :
    Like g (takeUntilUnquote i p) (takeUntilUnquote i' p) :=
  rl_congr (f := fun i => takeUntilUnquote i p) (fun i => takeUntilUnquote_rl i p) h

theorem Like.fileSeq {i i' : Span} (h : Like g i i') (extra : Str) : Like g (parseFileSeq extra i) (parseFileSeq extra i') :=
  rl_congr (f := parseFileSeq extra) (parseFileSeq_rl extra) h

theorem Like.ast {i i' : Span} (h : Like g i i') : Like g (parseAst i) (parseAst i') :=
  rl_congr (f := parseAst) parseAst_rl h

omit [Moves g] in
theorem Like.white {i i' : Span} (h : Like g i i') : Like g (whitespace i) (whitespace i') :=
  rl_congr (f := whitespace) whitespace_rl h

omit [Moves g] in
theorem Like.first {i i' : Span} (h : Like g i i') : Nom.firstChar i = Nom.firstChar i' :=
  rl_const (f := Nom.firstChar) Nom.firstChar_rl h

omit [Moves g] in
theorem Like.unwrap {α : Type} [Reloc α] {x x' : Option α} (h : Like g x x') : Like g (runwrap x) (runwrap x') :=
  rl_congr (f := runwrap) runwrap_rl h

/-! ### Evaluation -/

/-- The recursive calls send what is alike to what is alike. -/
structure RecSim (g : Location → Location) (r r' : Rec) : Prop where
  eval : ∀ a a' st st', Like g a a' → StRel g st st' → SameOutcome (Out g) (r.evalInternal a st) (r'.evalInternal a' st')
  block : ∀ b b' st st', Like g b b' → StRel g st st' → SameOutcome (Out g) (r.processBlock b st) (r'.processBlock b' st')

variable {r r' : Rec} (hr : RecSim g r r')
include hr

theorem RecSim.evalBlock {a a' : Ast} {st st' : St} (ha : Like g a a') (hs : StRel g st st') :
    SameOutcome (Out g) (r.eval a st) (r'.eval a' st') := by
  unfold Rec.eval
  refine SameOutcome.bindO (hr.eval a a' st st' ha hs) ?_
  rintro ⟨s, c⟩ ⟨s', c'⟩ st st' h hst
  obtain ⟨h1, h2⟩ := h.pair_inj
  obtain rfl := h1.sens
  refine SameOutcome.bindR (Like.blockNew s h2) ?_
  intro b b' hb
  exact ⟨hb, hst⟩

theorem evalConcat_same : ∀ (as as' : List Ast) (sens : Sens) (out out' : List CRef) (st st' : St), Like g as as' →
    Like g out out' → StRel g st st' →
    SameOutcome (Out g) (evalConcat r as sens out st) (evalConcat r' as' sens out' st')
  | [], [], _, _, _, _, _, _, ho, hs => ⟨Like.pair rfl ho, hs⟩
  | [], _ :: _, _, _, _, _, _, h, _, _ => by cases h
  | _ :: _, [], _, _, _, _, _, h, _, _ => by cases h
  | a :: as, a' :: as', sens, out, out', st, st', h, ho, hs => by
    obtain ⟨h1, h2⟩ := rl_cons_inj h
    unfold evalConcat
    refine SameOutcome.bindO (hr.eval a a' st st' h1 hs) ?_
    rintro ⟨s, c⟩ ⟨s', c'⟩ st st' h hst
    obtain ⟨h3, h4⟩ := h.pair_inj
    obtain rfl := h3.sens
    exact evalConcat_same as as' _ _ _ _ _ h2 (ho.append h4) hst

theorem derefVariable_same (name : Str) (sens : Sens) {st st' : St} (hs : StRel g st st') :
    SameOutcome (Out g) (derefVariable r name sens st) (derefVariable r' name sens st') := by
  obtain ⟨e, h⟩ := hs.internVar name
  unfold derefVariable
  generalize hv : (st.names.internVar name).1 = v at *
  dsimp only
  rw [hv, ← e]
  rcases h.getVariable v with ⟨h1, h2⟩ | ⟨p, p', h1, h2, hp⟩
  · dsimp only at h1 h2
    rw [h1, h2]
    exact ⟨rfl, h⟩
  · dsimp only at h1 h2
    rw [h1, h2]
    refine SameOutcome.bindO (hr.evalBlock (VarParams.rl_value hp) h) ?_
    intro b b' st st' hb hst
    refine ⟨Like.pair hb ?_, hst⟩
    rw [hb.blockSens]

omit hr [Moves g] in
theorem Like.varRefNode {n n' v v' : Block} (h : Like g n n') (h' : Like g v v') :
    Like g (Node.varRef n v) (Node.varRef n' v') := by
  show Node.mapLoc g _ = Node.mapLoc g _
  have e : Block.mapLoc g n = Block.mapLoc g n' := h
  have e' : Block.mapLoc g v = Block.mapLoc g v' := h'
  simp only [Node.mapLoc, e, e']

omit hr [Moves g] in
theorem Like.subRefNode {n n' k k' r r' v v' : Block} (h : Like g n n') (hk : Like g k k') (hr : Like g r r')
    (h' : Like g v v') : Like g (Node.subRef n k r v) (Node.subRef n' k' r' v') := by
  show Node.mapLoc g _ = Node.mapLoc g _
  have e : Block.mapLoc g n = Block.mapLoc g n' := h
  have e' : Block.mapLoc g v = Block.mapLoc g v' := h'
  have e2 : Block.mapLoc g k = Block.mapLoc g k' := hk
  have e3 : Block.mapLoc g r = Block.mapLoc g r' := hr
  simp only [Node.mapLoc, e, e', e2, e3]

omit hr [Moves g] in
theorem Like.evaluatedNode {v v' : Block} (h' : Like g v v') : Like g (Node.evaluated v) (Node.evaluated v') := by
  show Node.mapLoc g _ = Node.mapLoc g _
  have e' : Block.mapLoc g v = Block.mapLoc g v' := h'
  simp only [Node.mapLoc, e']

omit hr [Moves g] in
theorem Like.constantNode {v v' : LStr} (h' : Like g v v') : Like g (Node.constant v) (Node.constant v') := by
  show Node.mapLoc g _ = Node.mapLoc g _
  have e' : LStr.mapLoc g v = LStr.mapLoc g v' := h'
  simp only [Node.mapLoc, e']

omit hr in
theorem Like.subref (s : Sens) {v v' k k' r r' : Block} (h : Like g v v') (hk : Like g k k') (hr : Like g r r') :
    Like g (doSubref s v k r) (doSubref s v' k' r') := by
  show rl g _ = rl g _
  rw [← doSubref_rl, ← doSubref_rl, h, hk, hr]

theorem evalVarRef_same {a a' : Ast} {st st' : St} (ha : Like g a a') (hs : StRel g st st') :
    SameOutcome (Out g) (evalVarRef r a st) (evalVarRef r' a' st') := by
  unfold evalVarRef
  refine SameOutcome.bindO (hr.evalBlock ha hs) ?_
  intro b b' st st' hb hst
  dsimp only
  rw [hb.blockSens]
  refine SameOutcome.bindP (rl_congr (f := colonFind) colonFind_rl hb.span) ?_ ?_
  · rintro i i' ⟨n, k⟩ ⟨n', k'⟩ hi hnk
    obtain ⟨hn, hk⟩ := hnk.pair_inj
    refine SameOutcome.bindEq (by rw [hn.spanLen]) fun nl => ?_
    refine SameOutcome.bindR (hn.slice nl).newBlock fun b b' hb => ?_
    refine SameOutcome.bindEq (by rw [hk.spanLen]) fun kl => ?_
    refine SameOutcome.bindR (hk.slice kl).newBlock fun key key' hkey => ?_
    refine SameOutcome.bindR hi.newBlock fun rep rep' hrep => ?_
    refine SameOutcome.bindEq (intoString_congr hb) fun s => ?_
    refine SameOutcome.bindO (derefVariable_same hr s _ hst) ?_
    rintro ⟨v, sens⟩ ⟨v', sens'⟩ st st' hv hst
    obtain ⟨h1, h2⟩ := hv.pair_inj
    obtain rfl := h2.sens
    refine SameOutcome.bindR (Like.subref sens h1 hkey hrep) fun v v' hv => ?_
    exact ⟨Like.pair rfl (Like.one (Like.node (Like.subRefNode hb hkey hrep hv))), hst⟩
  · intro e
    refine SameOutcome.bindEq (intoString_congr hb) fun s => ?_
    refine SameOutcome.bindO (derefVariable_same hr s _ hst) ?_
    rintro ⟨v, sens⟩ ⟨v', sens'⟩ st st' hv hst
    obtain ⟨h1, h2⟩ := hv.pair_inj
    obtain rfl := h2.sens
    exact ⟨Like.pair rfl (Like.one (Like.node (Like.varRefNode hb h1))), hst⟩

theorem evalStep_same {a a' : Ast} {st st' : St} (ha : Like g a a') (hs : StRel g st st') :
    SameOutcome (Out g) (evalStep r a st) (evalStep r' a' st') := by
  have ha' : Ast.mapLoc g a = Ast.mapLoc g a' := ha
  cases a <;> cases a' <;> simp only [Ast.mapLoc, Ast.empty.injEq, Ast.constant.injEq, Ast.preEvaluated.injEq,
    Ast.concat.injEq, Ast.varRef.injEq, Ast.eval.injEq, Ast.strip.injEq, Ast.word.injEq, Ast.words.injEq, reduceCtorEq] at ha'
  all_goals unfold evalStep
  case empty.empty => exact ⟨rfl, hs⟩
  case constant.constant => exact ⟨Like.pair rfl (Like.one (Like.node (Like.constantNode ha'.2))), hs⟩
  case preEvaluated.preEvaluated => exact ⟨Like.pair rfl (Like.blockContent ha'.2), hs⟩
  case concat.concat =>
    refine evalConcat_same hr _ _ _ _ _ _ _ ?_ rfl hs
    rw [Ast.mapLocs_eq, Ast.mapLocs_eq] at ha'
    exact ha'.2
  case varRef.varRef => exact evalVarRef_same hr ha'.2 hs
  case eval.eval =>
    refine SameOutcome.bindO (hr.evalBlock ha'.2 hs) ?_
    intro b b' st st' hb hst
    dsimp only
    rw [hb.blockSens]
    refine SameOutcome.bindR (Like.blockNew _ (Like.one (Like.node (Like.evaluatedNode hb)))) fun c c' hc => ?_
    refine SameOutcome.bindE (hr.block _ _ _ _ hc hst) ?_ ?_
    · intro _ _ st st' _ hst
      exact ⟨rfl, hst⟩
    · intro e st st' hst
      rfl
  all_goals rfl

end Hastur
