import Verif.Proofs.Driver
/-
Lemmas for concrete cases: texts given as strings.
-/
namespace Hastur

open Res

@[simp] theorem textOf_locate (l : Location) (s : Str) : textOf (locate l s) = s := locate_fst l s

theorem free_locate {c : Char} {l : Location} {s : Str} (h : c ∉ s) : Free c (locate l s) := by
  rw [free_iff, textOf_locate]
  exact h

theorem head_locate {l : Location} {s : Str} {q : Char → Prop} (h : ∀ c, s.head? = some c → q c) :
    ∀ x, (locate l s).head? = some x → q x.1 := by
  cases s with
  | nil => simp [locate]
  | cons c s =>
    intro x hx
    simp only [locate, List.head?_cons, Option.some.injEq] at hx
    subst hx
    exact h c rfl

/-- A single line, given as a string. -/
theorem logical_locate {l : Location} {line rest : Str} (h1 : '\n' ∉ line)
    (h2 : ∀ c, line.head? = some c → ¬ (c = ' ' ∨ c = '\t')) (h3 : trailingSlashes line % 2 = 0) :
    Logical (locate l (line ++ '\n' :: rest)) (locate l line) (locate ((l.after line).after ['\n']) rest) := by
  have := Logical.mk [] [] (locate l line) (locate (l.after line) ('\n' :: rest))
    (locate ((l.after line).after ['\n']) rest) (by simp) (by intro x hx; cases hx) (free_locate h1)
    (head_locate h2) (by rw [textOf_locate]; exact h3) (.inr ⟨_, rfl⟩)
  rw [locate_append]
  exact this

/-- The engine at the first line of a file. -/
theorem atLine_locate {l : Location} {line rest : Str} {p : PState} {st : St} (ha : AsciiS (line ++ '\n' :: rest))
    (hc : '#' ∉ line ++ '\n' :: rest) (h1 : '\n' ∉ line) (h2 : ∀ c, line.head? = some c → ¬ (c = ' ' ∨ c = '\t'))
    (h3 : trailingSlashes line % 2 = 0) (hd : p.currentDefine = none) (hch : isAscii st.commandChar = true) (hw : st.WF) :
    AtLine (textBlock l (line ++ '\n' :: rest)) (textBlock l (line ++ '\n' :: rest)).span
      (locate l (line ++ '\n' :: rest)) (locate l line) (locate ((l.after line).after ['\n']) rest) p st :=
  ⟨by simp [textBlock], textBlock_mono _ _, textBlock_at ha, logical_locate h1 h2 h3, free_locate hc, hd, hch, hw⟩

theorem ready_locate {l : Location} {line rest : Str} {st : St} (ha : AsciiS (line ++ '\n' :: rest))
    (hc : '#' ∉ line ++ '\n' :: rest) (h1 : '\n' ∉ line) (h2 : ∀ c, line.head? = some c → ¬ (c = ' ' ∨ c = '\t'))
    (h3 : trailingSlashes line % 2 = 0) (hch : isAscii st.commandChar = true) (hw : st.WF) :
    Ready (textBlock l (line ++ '\n' :: rest)) (textBlock l (line ++ '\n' :: rest)).span
      (locate l (line ++ '\n' :: rest)) (locate l line) (locate ((l.after line).after ['\n']) rest) PState.new st :=
  ⟨atLine_locate ha hc h1 h2 h3 rfl hch hw, rfl, rfl⟩

/-- An assignment, given as a string. -/
theorem assignText_locate {l : Location} {name gap op gap' value : Str} {ty : AssignType}
    (h1 : ∀ c ∈ name, NameChar c) (h2 : ∀ c ∈ gap, c = ' ' ∨ c = '\t') (h3 : OpText ty op)
    (h4 : ∀ c ∈ gap', c = ' ' ∨ c = '\t') (h5 : ∀ c, value.head? = some c → ¬ (c = ' ' ∨ c = '\t')) :
    AssignText (locate l (name ++ (gap ++ (op ++ (gap' ++ value))))) (locate l name) ty
      (locate ((((l.after name).after gap).after op).after gap') value) := by
  have mem : ∀ {s : Str} {k : Location} {q : Char → Prop}, (∀ c ∈ s, q c) → ∀ x ∈ locate k s, q x.1 := by
    intro s k q h x hx
    refine h x.1 ?_
    have := List.mem_map_of_mem (f := Prod.fst) hx
    rwa [locate_fst] at this
  rw [locate_append, locate_append, locate_append, locate_append]
  exact .mk _ _ _ _ _ _ (mem h1) (mem h2) (by rw [textOf_locate]; exact h3) (mem h4) (head_locate h5)

theorem dropWhile_locate {l : Location} {s : Str} (h : ∀ c, s.head? = some c → ¬ (c = ' ' ∨ c = '\t')) :
    (locate l s).dropWhile lblank = locate l s := by
  cases s with
  | nil => rfl
  | cons c s =>
    have := h c rfl
    simp only [locate, List.dropWhile_cons]
    rw [if_neg]
    intro hb
    exact this (lblank_iff.mp hb)

theorem not_condLike_locate {l : Location} {s : Str} (h : ∀ c, s.head? = some c → ¬ (c = ' ' ∨ c = '\t'))
    (hc : ∀ w ∈ condWords, ¬ w <+: s.map lower) : ¬ CondLike ((locate l s).dropWhile lblank) := by
  rw [dropWhile_locate h]
  intro h
  cases h with
  | @word w hw hp =>
    rw [textOf_locate] at hp
    refine hc w ?_ hp
    simp only [condWords, List.mem_cons, List.not_mem_nil, or_false] at hw ⊢
    rcases hw with h | h | h | h <;> simp [h]
  | @eq a b e hw =>
    refine hc ((textOf a).map lower) ?_ ⟨(textOf b).map lower, ?_⟩
    · simp only [condWords, List.mem_cons, List.not_mem_nil, or_false] at hw ⊢
      rcases hw with h | h <;> simp [h]
    · rw [← List.map_append, ← textOf_append, ← e, textOf_locate]

theorem denotes_locate {env : Env} {l : Location} {s : Str} (h : trim s = s) : Denotes env (Expr.text (locate l s)) s :=
  ⟨_, _, Expands.text env _, by rw [textOf_locate]; exact h⟩

/-- A file that begins with an assignment, given as a string. -/
theorem assignFile_locate {l : Location} {line name gap op gap' value rest : Str} {ty : AssignType} {ves : List Expr}
    {as : List Assignment} (e : line = name ++ (gap ++ (op ++ (gap' ++ value)))) (h0 : '\n' ∉ line)
    (h0' : ∀ c, line.head? = some c → ¬ (c = ' ' ∨ c = '\t')) (hs : trailingSlashes line % 2 = 0)
    (hk : ∀ w ∈ condWords, ¬ w <+: line.map lower) (hd : '$' ∉ name)
    (h1 : ∀ c ∈ name, NameChar c) (h2 : ∀ c ∈ gap, c = ' ' ∨ c = '\t') (h3 : OpText ty op)
    (h4 : ∀ c ∈ gap', c = ' ' ∨ c = '\t') (h5 : ∀ c, value.head? = some c → ¬ (c = ' ' ∨ c = '\t')) (hne : value ≠ [])
    (hv : Reads (locate ((((l.after name).after gap).after op).after gap') value) (.ok ves))
    (hr : AssignFile (locate ((l.after line).after ['\n']) rest) as) :
    AssignFile (locate l (line ++ '\n' :: rest)) (⟨Expr.text (locate l name), ty, ves⟩ :: as) := by
  refine .assign (logical_locate h0 h0' hs) (by rw [e]; exact assignText_locate h1 h2 h3 h4 h5)
    (not_condLike_locate h0' hk) (reads_text (free_locate hd)) hv (fun _ he => hne ?_) hr
  cases value with
  | nil => rfl
  | cons => cases he

/-- A file that begins with an empty line, given as a string. -/
theorem assignFile_blank {l : Location} {rest : Str} {as : List Assignment}
    (hr : AssignFile (locate (l.after ['\n']) rest) as) : AssignFile (locate l ('\n' :: rest)) as :=
  .blank (by simp [locate]) (logical_locate (line := []) (by simp) (by simp) rfl) (by rw [Location.after_nil]; exact hr)

theorem not_isSubst_single {c : Char} {l : Location} : ¬ IsSubst (textOf [(c, l)]) := by
  rintro ⟨a, b, d, e, _⟩
  have := congrArg List.length e
  simp [textOf] at this
  omega

theorem reads_single {l l' : Location} {c : Char} (h1 : c ≠ '$') (h2 : c ≠ '(') (h3 : c ≠ '}') :
    Reads [('$', l), (c, l')] (.ok [.ref l [.char (c, l')]]) := .single (x := (c, l')) h1 h2 h3 .nil

end Hastur
