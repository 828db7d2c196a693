import Verif.Proofs.ParserTotal
import Verif.Proofs.ParserPull
import Verif.Proofs.Tags

/-!
# What the actions of the parser keep: clean tags, and representatives that are the least letters of their classes
-/

namespace Pire

open Fsm

namespace Partition

/-- The representative of a class is its least letter. -/
def Least (p : Partition) : Prop := ∀ c r, p.inv c = some r → r ≤ c

theorem Least.empty : Partition.empty.Least := by intro c r h; cases h

theorem pushTo_rep {eq : Nat → Nat → Bool} {t : Nat} {l s : List PClass} {r : Nat} (h : pushTo eq t l = some (s, r)) :
    (∃ e ∈ l, e.rep = r) ∧ s.map (·.rep) = l.map (·.rep) := by
  obtain ⟨pre, e, post, rfl, -, -, rfl, rfl⟩ := pushTo_some h
  exact ⟨⟨e, by simp, rfl⟩, by simp⟩

theorem insertSorted_rep {e : PClass} {l : List PClass} : ∀ x ∈ insertSorted e l, x = e ∨ x ∈ l := by
  induction l with
  | nil => intro x hx; simp [insertSorted] at hx; exact .inl hx
  | cons y l ih =>
    intro x hx
    rw [insertSorted] at hx
    split at hx
    · simpa using hx
    · split at hx
      · exact .inr hx
      · rcases List.mem_cons.1 hx with rfl | hx
        · exact .inr (by simp)
        · rcases ih x hx with h | h
          · exact .inl h
          · exact .inr (by simp [h])

/-- The letters come in increasing order. -/
theorem least_foldl {eq : Nat → Nat → Bool} (l : List Nat) : ∀ (p : Partition), p.Least → (∀ e ∈ p.set, ∀ t ∈ l, e.rep ≤ t) →
    l.Pairwise (· ≤ ·) → (l.foldl (fun p t => p.append eq t) p).Least := by
  induction l with
  | nil => intro p h _ _; exact h
  | cons t l ih =>
    intro p h hl hs
    rw [List.pairwise_cons] at hs
    refine ih _ ?_ ?_ hs.2
    · unfold append
      cases hp : pushTo eq t p.set with
      | some q =>
        obtain ⟨s, r⟩ := q
        intro c r' hc
        beta_reduce at hc
        rw [hp] at hc
        dsimp only at hc
        by_cases hct : c = t
        · subst hct
          rw [Function.update_self] at hc
          cases hc
          obtain ⟨⟨e, he, rfl⟩, -⟩ := pushTo_rep hp
          exact hl e he c (by simp)
        · rw [Function.update_of_ne hct] at hc
          exact h c r' hc
      | none =>
        intro c r' hc
        beta_reduce at hc
        rw [hp] at hc
        dsimp only at hc
        by_cases hct : c = t
        · subst hct
          rw [Function.update_self] at hc
          cases hc
          exact le_refl _
        · rw [Function.update_of_ne hct] at hc
          exact h c r' hc
    · intro e he u hu
      beta_reduce at he
      unfold append at he
      cases hp : pushTo eq t p.set with
      | some q =>
        obtain ⟨s, r⟩ := q
        rw [hp] at he
        dsimp only at he
        have h1 := (pushTo_rep hp).2
        have h2 : e.rep ∈ p.set.map (·.rep) := by rw [← h1]; exact List.mem_map_of_mem he
        obtain ⟨e', he', h3⟩ := List.mem_map.1 h2
        rw [← h3]
        exact hl e' he' u (by simp [hu])
      | none =>
        rw [hp] at he
        dsimp only at he
        rcases insertSorted_rep e he with rfl | he
        · exact hs.1 u hu
        · exact hl e he u (by simp [hu])

end Partition

namespace Fsm

/-- The letters of the automaton. -/
def Least (f : Fsm) : Prop := f.letters.Least

theorem Least.of_eq {f g : Fsm} (h : f.Least) (he : g.letters = f.letters) : g.Least := by
  unfold Least; rw [he]; exact h

theorem Least.of_empty {f : Fsm} (he : f.letters = Partition.empty) : f.Least := by
  unfold Least; rw [he]; exact .empty

theorem sparse_least (f : Fsm) (b : Bool) : (f.sparse b).Least := by
  refine Partition.least_foldl _ _ .empty (by simp [Partition.empty]) ?_
  unfold allLetters
  exact (List.pairwise_le_range).filter _

theorem Least.removeEpsilons (f : Fsm) : f.removeEpsilons.Least := sparse_least _ _

theorem Least.determine {f : Fsm} (h : f.Least) (m : Nat) : (f.determine m).1.Least := by
  unfold Fsm.determine
  split
  · exact h
  · simp only
    split
    · rename_i states conns _
      exact (Least.removeEpsilons f).of_eq (build_fields f.removeEpsilons states conns).2.2.1
    · exact Least.removeEpsilons f

theorem Least.minimize {f : Fsm} (h : f.Least) : f.minimize.Least := by
  unfold Fsm.minimize
  split
  · simp only
    refine h.of_eq ?_
    unfold swapFrom mergeClasses
    simp only [connectAll_letters]
    rfl
  · exact h

theorem Least.complement {f g : Fsm} (h : f.Least) (hg : f.complement = some g) : g.Least := by
  rw [complement_eq] at hg
  split at hg
  · cases hg
    exact ((h.determine 0).minimize).of_eq (complementCore_fields _).2.2.2.1
  · cases hg

theorem foldl_same {α β : Type} {F : Fsm → β → Fsm} {p : Fsm → α} (h : ∀ f x, p (F f x) = p f) (l : List β) (f : Fsm) :
    p (l.foldl F f) = p f := by
  induction l generalizing f with
  | nil => rfl
  | cons x l ih => rw [List.foldl_cons, ih, h]

theorem concat_letters (f g : Fsm) : (f.concat g).letters = Partition.empty := by
  unfold concat
  simp only
  refine (foldl_same (p := (·.letters)) (F := fun h q => h.setFinal (q + f.size) true) (fun _ _ => rfl) _ _).trans ?_
  exact foldl_same (p := (·.letters)) (F := fun h (e : Nat × Nat) => h.connectFinal e.2 e.1) (fun f x => connectFinal_letters ..) _ _

theorem union_letters (f g : Fsm) : (f.union g).letters = Partition.empty := by
  unfold union
  simp only
  have : ∀ (r n : Nat) (l : List Nat) (h : Fsm), (l.foldl (fun h p => (h.connect h.initial (p + n) Epsilon).disconnect (r + n) (p + n) Epsilon) h).letters = h.letters := by
    intro r n l
    induction l with
    | nil => intro h; rfl
    | cons e l ih => intro h; rw [List.foldl_cons, ih]; rfl
  split
  · rfl
  · split
    · rfl
    · split
      · rfl
      · exact (this _ _ _ _)

theorem Least.inter {f r g : Fsm} (hg : f.inter r = some g) : g.Least := by
  unfold Fsm.inter at hg
  simp only [Option.bind_eq_bind, Option.bind_eq_some_iff] at hg
  obtain ⟨a, ha, b, hb, hg⟩ := hg
  exact Least.complement (.of_empty (union_letters b a)) hg

theorem appendLetters_letters (f : Fsm) (l : List Nat) : (f.appendLetters l).letters = f.letters := by
  unfold appendLetters
  exact foldl_same (p := (·.letters)) (F := fun g c => g.connectFinal (g.size - 1) c) (fun f x => connectFinal_letters ..) _ _

theorem asMid_letters (s : ASt × Nat) (c : Nat) : (asMid s c).1.fsm.letters = s.1.fsm.letters := by
  unfold asMid
  simp only
  split <;> rfl

theorem asMid_fold_letters (l : List Nat) (s : ASt × Nat) : (l.foldl asMid s).1.fsm.letters = s.1.fsm.letters := by
  induction l generalizing s with
  | nil => rfl
  | cons c l ih => rw [List.foldl_cons, ih, asMid_letters]

theorem asStep_letters (fin : Nat) (st : ASt) (s : List Nat) : (asStep fin st s).fsm.letters = st.fsm.letters := by
  unfold asStep
  split
  · rfl
  · exact connectFinal_letters ..
  · rename_i c cs _
    simp only
    have := asMid_fold_letters cs.dropLast
    split
    · exact (this _).trans (connectFinal_letters ..)
    · exact this _

theorem asFold_letters (fin : Nat) (l : List (List Nat)) (st : ASt) : (l.foldl (asStep fin) st).fsm.letters = st.fsm.letters := by
  induction l generalizing st with
  | nil => rfl
  | cons s l ih => rw [List.foldl_cons, ih, asStep_letters]

theorem appendStrings_letters {f g : Fsm} {t : List (List Nat)} (h : f.appendStrings t = some g) : g.letters = f.letters := by
  unfold appendStrings at h
  split at h
  · cases h
  · cases h
    exact asFold_letters ..

theorem removeDeadEnds_tags (f : Fsm) : f.removeDeadEnds.tags = f.tags := by
  unfold removeDeadEnds
  exact foldl_tags (F := removeState) (fun _ _ => rfl) _ _

end Fsm

namespace Enc

theorem utf8AppendDot_same {α : Type} (p : Fsm → α) (h1 : ∀ f q c, p (f.connectFinal q c) = p f) (h2 : ∀ f q r c, p (f.connect q r c) = p f)
    (h3 : ∀ f n, p (f.resize n) = p f) (h4 : ∀ f, p (f.clearFinal) = p f) (h5 : ∀ f q b, p (f.setFinal q b) = p f)
    (h6 : ∀ f : Fsm, p { f with determined := false } = p f) (f : Fsm) : p (utf8AppendDot f) = p f := by
  unfold utf8AppendDot
  simp only
  rw [h6, h5, h4]
  unfold utf8DotNext
  rw [foldl_same (p := p)]
  · unfold utf8DotFirst
    rw [foldl_same (p := p)]
    · exact h3 _ _
    · intro g i
      exact foldl_same (p := p) (fun g l => h1 g _ _) _ _
  · intro g i
    exact foldl_same (p := p) (fun g l => h2 g _ _ _) _ _

theorem appendDot_tags (e : Encoding) (f : Fsm) : (e.appendDot f).tags = f.tags := by
  cases e with
  | latin1 => exact Fsm.appendDot_tags f
  | utf8 => exact utf8AppendDot_same (·.tags) connectFinal_tags (fun _ _ _ _ => rfl) (fun _ _ => rfl) (fun _ => rfl) (fun _ _ _ => rfl) (fun _ => rfl) f

theorem appendDot_letters (e : Encoding) (f : Fsm) : (e.appendDot f).letters = f.letters := by
  cases e with
  | latin1 => exact appendLetters_letters f _
  | utf8 => exact utf8AppendDot_same (·.letters) connectFinal_letters (fun _ _ _ _ => rfl) (fun _ _ => rfl) (fun _ => rfl) (fun _ _ _ => rfl) (fun _ => rfl) f

end Enc

namespace Parse

open Pire.Spec Pire.Lex Pire.Enc

/-- A property every action keeps. -/
structure Kept (e : Encoding) (K : Fsm → Prop) : Prop where
  init : K Fsm.init
  false : K Fsm.makeFalse
  char : ∀ f c, K f → K (f.appendChar c)
  dot : ∀ f, K f → K (e.appendDot f)
  strings : ∀ f t g, f.appendStrings t = some g → K f → K g
  concat : ∀ f g, K f → K g → K (f.concat g)
  union : ∀ f g, K f → K g → K (f.union g)
  iterate : ∀ f, K f → K f.iterate
  complement : ∀ f g, f.complement = some g → K f → K g
  inter : ∀ f g h, f.inter g = some h → K f → K g → K h
  trim : ∀ f, K f → K f.removeDeadEnds

variable {e : Encoding} {K : Fsm → Prop}

theorem Kept.power (k : Kept e K) {f : Fsm} (h : K f) (n : Nat) : K (f.power n) := by
  induction n with
  | zero => exact k.init
  | succ n ih => exact k.concat _ _ ih h

/-- Every value returned has the property. -/
def Ret {α : Type} (r : Res α) (P : α → Prop) : Prop := ∀ x, r = .ok x → P x

theorem Ret.bind {α β : Type} {r : Res α} {P : α → Prop} {F : α → Res β} {Q : β → Prop} (h : Ret r P) (hF : ∀ x, P x → Ret (F x) Q) :
    Ret (r >>= F) Q := by
  intro y hy
  cases r with
  | ok x => exact hF x (h x rfl) y hy
  | throws => cases hy
  | bad => cases hy

theorem Ret.ok {α : Type} {x : α} {P : α → Prop} (h : P x) : Ret (.ok x) P := by intro y hy; cases hy; exact h

theorem Ret.lift {x : Option Fsm} {P : Fsm → Prop} (h : ∀ f, x = some f → P f) : Ret (lift x) P := by
  intro y hy
  cases x with
  | none => cases hy
  | some f => cases hy; exact h _ rfl

/-- A value of the parser. -/
def KeptVal (K : Fsm → Prop) : Val → Prop
  | .fsm f => K f
  | _ => True

theorem Kept.appendRange (k : Kept e K) {a : Fsm} (h : K a) (cs : Finset Nat) : Ret (appendRange e a cs) K := by
  unfold Parse.appendRange
  dsimp only
  split
  · exact .ok k.false
  · exact .lift fun f hf => k.strings _ _ _ hf h

theorem Kept.convertToFsm (k : Kept e K) (v : Val) (h : KeptVal K v) : Ret (convertToFsm e v) K := by
  cases v with
  | range cs neg =>
    rw [Parse.convertToFsm]
    refine (k.appendRange k.init cs).bind fun a ha => ?_
    split
    · refine (Ret.lift (P := K) fun f hf => k.complement _ _ hf (k.dot _ k.init)).bind fun x hx => ?_
      exact (Ret.lift (P := K) fun f hf => k.complement _ _ hf (k.union _ _ ha hx)).bind fun x hx => .ok (k.trim _ hx)
    · exact .ok ha
  | fsm f => exact .ok h
  | dot => exact .ok (k.dot _ k.init)
  | bol => exact .ok (k.char _ _ k.init)
  | eol => exact .ok (k.char _ _ k.init)

theorem Kept.appendIteration (k : Kept e K) {a : Fsm} (h : K a) (v : Val) (hv : KeptVal K v) : Ret (appendIteration e a v) K := by
  unfold Parse.appendIteration
  split
  · exact k.appendRange h _
  · exact .ok (k.dot _ h)
  · exact (k.convertToFsm _ hv).bind fun x hx => .ok (k.concat _ _ h hx)

theorem Kept.repeatAction (k : Kept e K) {f : Fsm} (h : K f) (lo : Nat) (hi : Option Nat) : Ret (repeatAction f lo hi) K := by
  unfold Parse.repeatAction
  dsimp only
  repeat' split
  · exact .ok (k.union _ _ h k.init)
  · exact .ok (k.iterate _ h)
  · exact .ok (k.concat _ _ h (k.iterate _ h))
  · exact .ok (k.concat _ _ (k.power h _) (k.iterate _ h))
  · exact .ok (k.power h _)
  · intro x hx; cases hx
  · exact .ok (k.concat _ _ (k.power h _) (k.power (k.union _ _ h k.init) _))

mutual
theorem Kept.evalAlt (k : Kept e K) (a : Alt) : Ret (evalAlt e a) K := by
  match a with
  | .one c => rw [Parse.evalAlt]; exact Kept.evalConj k c
  | .or a c =>
    rw [Parse.evalAlt]
    exact (Kept.evalAlt k a).bind fun _ h => (Kept.evalConj k c).bind fun _ h' => .ok (k.union _ _ h h')
theorem Kept.evalConj (k : Kept e K) (c : Conj) : Ret (evalConj e c) K := by
  match c with
  | .one n => rw [Parse.evalConj]; exact Kept.evalNeg k n
  | .and c n =>
    rw [Parse.evalConj]
    exact (Kept.evalConj k c).bind fun _ h => (Kept.evalNeg k n).bind fun _ h' => .lift fun f hf => k.inter _ _ _ hf h h'
theorem Kept.evalNeg (k : Kept e K) (n : Neg) : Ret (evalNeg e n) K := by
  match n with
  | .one c => rw [Parse.evalNeg]; exact Kept.evalCat k c
  | .not c =>
    rw [Parse.evalNeg]
    exact (Kept.evalCat k c).bind fun _ h => .lift fun f hf => k.complement _ _ hf h
theorem Kept.evalCat (k : Kept e K) (c : Cat) : Ret (evalCat e c) K := by
  match c with
  | .nil => exact .ok k.init
  | .snoc c i =>
    rw [Parse.evalCat]
    exact (Kept.evalCat k c).bind fun _ h => (Kept.evalIter k i).bind fun v h' => k.appendIteration h v h'
theorem Kept.evalIter (k : Kept e K) (i : Iter) : Ret (evalIter e i) (KeptVal K) := by
  match i with
  | .one t => rw [Parse.evalIter]; exact Kept.evalTerm k t
  | .rep t lo hi =>
    rw [Parse.evalIter]
    exact (Kept.evalTerm k t).bind fun v h => (k.convertToFsm v h).bind fun f h => (k.repeatAction h lo hi).bind fun _ h => .ok h
theorem Kept.evalTerm (k : Kept e K) (t : Term) : Ret (evalTerm e t) (KeptVal K) := by
  match t with
  | .letters _ _ => exact .ok trivial
  | .dot => exact .ok trivial
  | .bol => exact .ok trivial
  | .eol => exact .ok trivial
  | .group a =>
    rw [Parse.evalTerm]
    exact (Kept.evalAlt k a).bind fun _ h => .ok h
end

theorem Kept.parsePattern (k : Kept e K) (F : List Feature) (s : List Nat) : Ret (parsePattern F e s) K := by
  intro f hf
  obtain ⟨ts, t, -, -, h⟩ := parsePattern_ok hf
  exact k.evalAlt t f h

theorem kept_tags (e : Encoding) {M : Nat → Prop} (hM : ∀ a b, M a → M b → M (a ||| b)) : Kept e (TagsIn M) where
  init := .init
  false := TagsIn.init.of_eq rfl
  char f c h := h.of_eq (appendChar_tags f c)
  dot f h := h.of_eq (Enc.appendDot_tags e f)
  strings f t g hg h := h.of_eq (appendStrings_tags hg)
  concat f g h h' := h.concat h'
  union f g h h' := h.union h'
  iterate f h := h.of_eq (iterate_tags f)
  complement f g hg h := h.complement hM hg
  inter f g x hx h h' := h.inter hM h' hx
  trim f h := h.of_eq (removeDeadEnds_tags f)

theorem kept_least (e : Encoding) : Kept e Least where
  init := .of_empty rfl
  false := .of_empty rfl
  char f c h := h.of_eq (appendChar_letters f c)
  dot f h := h.of_eq (Enc.appendDot_letters e f)
  strings f t g hg h := h.of_eq (appendStrings_letters hg)
  concat f g h h' := .of_empty (concat_letters f g)
  union f g h h' := .of_empty (union_letters f g)
  iterate f h := h.of_eq (iterate_letters f)
  complement f g hg h := h.complement hg
  inter f g x hx h h' := .inter hx
  trim f h := h.of_eq (by unfold removeDeadEnds; exact foldl_same (p := (·.letters)) (F := removeState) (fun _ _ => rfl) _ _)

end Parse
end Pire
