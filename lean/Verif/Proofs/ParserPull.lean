import Verif.Proofs.ParserTotal
import Verif.Proofs.Lexer

/-!
# Running the actions during the parse or on the finished tree
-/

namespace Pire

open Pire.Spec

namespace Lex.Res

instance : LawfulMonad Res := LawfulMonad.mk'
  (id_map := fun x => by cases x <;> rfl)
  (pure_bind := fun _ _ => rfl)
  (bind_assoc := fun x _ _ => by cases x <;> rfl)

end Lex.Res

namespace Parse

open Pire.Lex Pire.Enc Pire.Fsm

theorem res_bind' {α β : Type} {x : Res α} {k : α → Res β} {r : β} (h : (x >>= k) = .ok r) : ∃ a, x = .ok a ∧ k a = .ok r := by
  cases x with
  | ok a => exact ⟨a, rfl, h⟩
  | throws => cases h
  | bad => cases h

theorem ok_eq_pure {α : Type} (a : α) : (Res.ok a) = (pure a : Res α) := rfl

/-! ### The values of a frame of trees -/

def evalAlt? (e : Encoding) : Option Alt → Res (Option Fsm)
  | none => pure none
  | some a => do let x ← evalAlt e a; pure (some x)

def evalConj? (e : Encoding) : Option Conj → Res (Option Fsm)
  | none => pure none
  | some a => do let x ← evalConj e a; pure (some x)

def evalCat? (e : Encoding) : Cat → Res (Option Fsm)
  | .nil => pure none
  | .snoc c i => do let x ← evalCat e (.snoc c i); pure (some x)

def evalTerm? (e : Encoding) : Option Term → Res (Option Val)
  | none => pure none
  | some t => do let x ← evalTerm e t; pure (some x)

def evalFrame (e : Encoding) (f : Frame) : Res VFrame := do
  let a ← evalAlt? e f.alt
  let c ← evalConj? e f.conj
  let k ← evalCat? e f.cat
  let l ← evalTerm? e f.last
  pure ⟨a, c, f.neg, k, l⟩

def evalOuts (e : Encoding) : List Frame → Res (List VFrame)
  | [] => pure []
  | g :: out => do
    let vs ← evalOuts e out
    let v ← evalFrame e g
    let v ← v.closeTerm e
    pure (v :: vs)

def evalStack (e : Encoding) (st : Frame × List Frame) : Res (VFrame × List VFrame) := do
  let vs ← evalOuts e st.2
  let v ← evalFrame e st.1
  pure (v, vs)

theorem evalCat?_getD (e : Encoding) (c : Cat) {β : Type} (k : Fsm → Res β) : (do let x ← evalCat? e c; k (x.getD Fsm.init)) = (do let x ← evalCat e c; k x) := by
  cases c with
  | nil => rw [evalCat?, evalCat]; rfl
  | snoc c i => rw [evalCat?]; simp only [bind_assoc, pure_bind, Option.getD_some]

/-- Closing the last term of a frame. -/
theorem evalFrame_closeTerm (e : Encoding) (f : Frame) : evalFrame e { f with cat := f.closeTerm, last := none } = (do let v ← evalFrame e f; v.closeTerm e) := by
  unfold evalFrame Frame.closeTerm VFrame.closeTerm
  simp only [bind_assoc, pure_bind, ok_eq_pure]
  congr 1; funext a; congr 1; funext c
  cases hl : f.last with
  | none => simp only [evalTerm?, pure_bind]
  | some t =>
    simp only [evalTerm?, pure_bind, bind_assoc]
    rw [evalCat?]
    simp only [bind_assoc, pure_bind]
    rw [evalCat]
    simp only [bind_assoc, evalIter]
    rw [← evalCat?_getD e f.cat (fun x => do let v ← evalTerm e t; let r ← appendIteration e x v; pure (⟨a, c, f.neg, some r, none⟩ : VFrame))]

theorem evalCat_closeTerm (e : Encoding) (f : Frame) {β : Type} (k : Fsm → Res β) (a c : Option Fsm) :
    (do let x ← evalCat e f.closeTerm; k x) =
      (do let x ← evalCat? e f.cat; let l ← evalTerm? e f.last; let v ← (⟨a, c, f.neg, x, l⟩ : VFrame).closeTerm e; k (v.cat.getD Fsm.init)) := by
  unfold Frame.closeTerm VFrame.closeTerm
  cases hl : f.last with
  | none =>
    simp only [evalTerm?, pure_bind, ok_eq_pure]
    exact (evalCat?_getD e f.cat k).symm
  | some t =>
    simp only [evalTerm?, pure_bind, bind_assoc, ok_eq_pure, Option.getD_some]
    rw [evalCat]
    simp only [bind_assoc, evalIter]
    rw [← evalCat?_getD e f.cat (fun x => do let v ← evalTerm e t; let r ← appendIteration e x v; k r)]

theorem evalConj_closeConj (e : Encoding) (f : Frame) (a : Option Fsm) :
    evalConj e f.closeConj =
      (do let c ← evalConj? e f.conj; let x ← evalCat? e f.cat; let l ← evalTerm? e f.last; (⟨a, c, f.neg, x, l⟩ : VFrame).closeConj e) := by
  have neg : ∀ c : Option Fsm, evalNeg e (if f.neg then Neg.not f.closeTerm else Neg.one f.closeTerm) =
      (do let x ← evalCat? e f.cat; let l ← evalTerm? e f.last; let v ← (⟨a, c, f.neg, x, l⟩ : VFrame).closeTerm e;
          if f.neg then lift (v.cat.getD Fsm.init).complement else pure (v.cat.getD Fsm.init)) := by
    intro c
    rw [← evalCat_closeTerm e f (fun x => if f.neg then lift x.complement else pure x)]
    cases f.neg with
    | true => simp only [if_true]; rw [evalNeg]
    | false => simp only [Bool.false_eq_true, if_false, bind_pure]; rw [evalNeg]
  have hv : ∀ v : VFrame, v.closeConj e = (v.closeTerm e >>= fun v => (if v.neg then lift (v.cat.getD Fsm.init).complement else Res.ok (v.cat.getD Fsm.init)) >>=
      fun n => match v.conj with | none => Res.ok n | some c => lift (c.inter n)) := by
    intro v
    unfold VFrame.closeConj
    congr 1; funext v
    dsimp only
    cases v.neg <;> rfl
  have keep : ∀ (c x : Option Fsm) (l : Option Val), (⟨a, c, f.neg, x, l⟩ : VFrame).closeConj e =
      ((⟨a, c, f.neg, x, l⟩ : VFrame).closeTerm e >>= fun v => (if f.neg then lift (v.cat.getD Fsm.init).complement else pure (v.cat.getD Fsm.init)) >>=
      fun n => match c with | none => pure n | some c => lift (c.inter n)) := by
    intro c x l
    rw [hv]
    unfold VFrame.closeTerm
    cases l <;> simp only [ok_eq_pure, pure_bind, bind_assoc]
  unfold Frame.closeConj
  dsimp only
  cases hc : f.conj with
  | none =>
    dsimp only
    rw [evalConj, neg none]
    simp only [evalConj?, pure_bind]
    congr 1; funext x; congr 1; funext l
    rw [keep]
    dsimp only
    simp only [bind_pure]
  | some c =>
    dsimp only
    rw [evalConj]
    simp only [evalConj?, bind_assoc, pure_bind]
    congr 1; funext x
    rw [neg (some x)]
    simp only [bind_assoc]
    congr 1; funext y; congr 1; funext l
    rw [keep]

theorem evalAlt_closeAlt (e : Encoding) (f : Frame) : evalAlt e f.closeAlt = (do let v ← evalFrame e f; v.closeAlt e) := by
  unfold Frame.closeAlt evalFrame VFrame.closeAlt
  simp only [bind_assoc, pure_bind]
  cases ha : f.alt with
  | none =>
    dsimp only
    rw [evalAlt, evalConj_closeConj e f none]
    simp only [evalAlt?, pure_bind, ok_eq_pure, bind_pure]
  | some a =>
    dsimp only
    rw [evalAlt]
    simp only [evalAlt?, pure_bind, ok_eq_pure, bind_assoc]
    congr 1; funext x
    rw [evalConj_closeConj e f (some x)]
    simp only [bind_assoc]

/-! ### One token -/

/-- The result of a step as a result of the parse so far. -/
def orThrow {α : Type} : Option α → Res α
  | none => .throws
  | some a => pure a

theorem step_closed {e : Encoding} (f : Frame) (t : Term) (v : Val) (ht : evalTerm e t = pure v) :
    evalFrame e (f.term t) = (do let x ← evalFrame e f; let x ← x.closeTerm e; pure { x with last := some v }) := by
  have h := evalFrame_closeTerm e f
  rw [← bind_assoc, ← h]
  unfold evalFrame Frame.term
  simp only [bind_assoc, pure_bind, evalTerm?, ht]

/-- A token that the parser shifts: the values after it. -/
theorem evalStack_step (e : Encoding) {st st' : Frame × List Frame} {t : Tok} (h : step st t = some st') :
    evalStack e st' = (do let v ← evalStack e st; let o ← vstep e v t; orThrow o) := by
  obtain ⟨f, out⟩ := st
  unfold evalStack
  simp only [bind_assoc, pure_bind]
  cases t with
  | letters cs neg =>
    cases h
    simp only [vstep, bind_assoc, ok_eq_pure, pure_bind, orThrow, step_closed (e := e) f (.letters cs neg) (.range cs neg) (by rw [evalTerm]; rfl)]
  | dot =>
    cases h
    simp only [vstep, bind_assoc, ok_eq_pure, pure_bind, orThrow, step_closed (e := e) f (.dot) (.dot) (by rw [evalTerm]; rfl)]
  | bol =>
    cases h
    simp only [vstep, bind_assoc, ok_eq_pure, pure_bind, orThrow, step_closed (e := e) f (.bol) (.bol) (by rw [evalTerm]; rfl)]
  | eol =>
    cases h
    simp only [vstep, bind_assoc, ok_eq_pure, pure_bind, orThrow, step_closed (e := e) f (.eol) (.eol) (by rw [evalTerm]; rfl)]
  | opn =>
    cases h
    simp only [vstep, bind_assoc, ok_eq_pure, pure_bind, orThrow, evalOuts]
    rfl
  | cls =>
    cases out with
    | nil => cases h
    | cons g out =>
      cases h
      simp only [vstep, bind_assoc, ok_eq_pure, pure_bind, orThrow, evalOuts]
      congr 1; funext vs
      have hg := evalFrame_closeTerm e g
      have : evalFrame e (g.term (.group f.closeAlt)) = (do let x ← evalFrame e g; let x ← x.closeTerm e; let a ← evalAlt e f.closeAlt; pure { x with last := some (.fsm a) }) := by
        rw [← bind_assoc, ← hg]
        unfold evalFrame Frame.term
        simp only [bind_assoc, pure_bind, evalTerm?, evalTerm, ok_eq_pure]
      rw [this, evalAlt_closeAlt]
      simp only [bind_assoc, pure_bind]
  | bar =>
    cases h
    simp only [vstep, bind_assoc, ok_eq_pure, pure_bind, orThrow]
    congr 1; funext vs
    rw [show evalFrame e ⟨some f.closeAlt, none, false, .nil, none⟩ = (do let a ← evalAlt e f.closeAlt; pure ⟨some a, none, false, none, none⟩) by
      simp only [evalFrame, evalAlt?, evalConj?, evalCat?, evalTerm?, bind_assoc, pure_bind]]
    rw [evalAlt_closeAlt]
    simp only [bind_assoc, pure_bind]
  | amp =>
    cases h
    simp only [vstep, bind_assoc, ok_eq_pure, pure_bind, orThrow]
    congr 1; funext vs
    rw [show evalFrame e ⟨f.alt, some f.closeConj, false, .nil, none⟩ = (do let a ← evalAlt? e f.alt; let c ← evalConj e f.closeConj; pure ⟨a, some c, false, none, none⟩) by
      simp only [evalFrame, evalConj?, evalCat?, evalTerm?, bind_assoc, pure_bind]]
    unfold evalFrame
    simp only [bind_assoc, pure_bind]
    congr 1; funext a
    rw [evalConj_closeConj e f a]
    simp only [bind_assoc]
  | tilde =>
    simp only [step] at h
    split at h
    · rename_i h1 h2 h3
      cases h
      congr 1; funext vs
      simp only [evalFrame, h1, h2, h3, evalCat?, evalTerm?, bind_assoc, pure_bind]
      congr 1
    · cases h
  | count lo hi =>
    simp only [step] at h
    cases hl : f.last with
    | none => rw [hl] at h; cases h
    | some t =>
      rw [hl] at h
      cases h
      congr 1; funext vs
      simp only [evalFrame, hl, evalTerm?, bind_assoc, pure_bind, vstep, ok_eq_pure, orThrow]
      congr 1; funext a; congr 1; funext c
      rw [evalCat?]
      simp only [bind_assoc, pure_bind]
      rw [evalCat]
      simp only [bind_assoc, evalIter, ok_eq_pure, pure_bind]
      rw [← evalCat?_getD e f.cat (fun x => do
        let v ← evalTerm e t; let o ← convertToFsm e v; let g ← repeatAction o lo hi; let r ← appendIteration e x (.fsm g)
        pure ((⟨a, c, f.neg, some r, none⟩ : VFrame), vs))]

/-- A token that is a syntax error: the values cannot go on either. -/
theorem vstep_none (e : Encoding) {st : Frame × List Frame} {t : Tok} (h : step st t = none) {v : VFrame × List VFrame} (hv : evalStack e st = .ok v) :
    vstep e v t = .ok none := by
  obtain ⟨f, out⟩ := st
  obtain ⟨w, vs⟩ := v
  unfold evalStack at hv
  obtain ⟨vs', h1, hv⟩ := res_bind' hv
  obtain ⟨w', h2, hv⟩ := res_bind' hv
  cases hv
  unfold evalFrame at h2
  obtain ⟨a, ha, h2⟩ := res_bind' h2
  obtain ⟨c, hc, h2⟩ := res_bind' h2
  obtain ⟨k, hk, h2⟩ := res_bind' h2
  obtain ⟨l, hl, h2⟩ := res_bind' h2
  cases h2
  cases t with
  | cls =>
    cases out with
    | nil => cases h1; rfl
    | cons g out => cases h
  | tilde =>
    simp only [step] at h
    cases hn : f.neg with
    | true => simp [vstep]
    | false =>
      cases hkk : f.cat with
      | snoc x i =>
        rw [hkk, evalCat?] at hk
        obtain ⟨y, -, hk⟩ := res_bind' hk
        cases hk
        simp [vstep]
      | nil =>
        cases hll : f.last with
        | none => rw [hn, hkk, hll] at h; cases h
        | some t =>
          rw [hll, evalTerm?] at hl
          obtain ⟨y, -, hl⟩ := res_bind' hl
          cases hl
          simp [vstep]
  | count lo hi =>
    simp only [step] at h
    cases hll : f.last with
    | some t => rw [hll] at h; cases h
    | none => rw [hll, evalTerm?] at hl; cases hl; rfl
  | _ => cases h

/-! ### A list of tokens -/

/-- The parser on a list of tokens. -/
def vrun (e : Encoding) : VFrame × List VFrame → List Tok → Res (VFrame × List VFrame)
  | st, [] => .ok st
  | st, t :: ts => do
    let o ← vstep e st t
    let st ← orThrow o
    vrun e st ts

theorem evalStack_run (e : Encoding) : ∀ (ts : List Tok) (st st' : Frame × List Frame), ts.foldlM step st = some st' →
    evalStack e st' = (do let v ← evalStack e st; vrun e v ts) := by
  intro ts
  induction ts with
  | nil =>
    intro st st' h
    cases h
    simp only [vrun, ok_eq_pure, bind_pure]
  | cons t ts ih =>
    intro st st' h
    rw [List.foldlM_cons] at h
    obtain ⟨st1, h1, h2⟩ := Option.bind_eq_some_iff.1 h
    rw [ih st1 st' h2, evalStack_step e h1]
    simp only [bind_assoc, vrun]

theorem vrun_none (e : Encoding) : ∀ (ts : List Tok) (st : Frame × List Frame), ts.foldlM step st = none → ∀ v, evalStack e st = .ok v → ∀ w, vrun e v ts ≠ .ok w := by
  intro ts
  induction ts with
  | nil => intro st h; cases h
  | cons t ts ih =>
    intro st h v hv w hw
    rw [List.foldlM_cons] at h
    rw [vrun] at hw
    obtain ⟨o, h1, hw⟩ := res_bind' hw
    obtain ⟨v1, h2, hw⟩ := res_bind' hw
    cases hs : step st t with
    | none =>
      rw [vstep_none e hs hv] at h1
      cases h1
      cases h2
    | some st1 =>
      rw [hs] at h
      refine ih st1 h v1 ?_ w hw
      rw [evalStack_step e hs, hv, ok_bind, h1, ok_bind, h2]

theorem evalStack_new (e : Encoding) : evalStack e (Frame.new, []) = .ok (VFrame.new, []) := rfl

theorem evalOuts_length (e : Encoding) : ∀ (out : List Frame) {vs : List VFrame}, evalOuts e out = .ok vs → vs.length = out.length := by
  intro out
  induction out with
  | nil => intro vs h; cases h; rfl
  | cons g out ih =>
    intro vs h
    rw [evalOuts] at h
    obtain ⟨vs', h1, h⟩ := res_bind' h
    obtain ⟨v, -, h⟩ := res_bind' h
    obtain ⟨v, -, h⟩ := res_bind' h
    cases h
    rw [List.length_cons, List.length_cons, ih h1]

/-- Tokens of a tree: the actions during the parse make what they make on the tree. -/
theorem vrun_parse (e : Encoding) {ts : List Tok} {t : Alt} (h : parse ts = some t) : (do let v ← vrun e (VFrame.new, []) ts; finish e v) = evalAlt e t := by
  unfold parse at h
  cases hf : ts.foldlM step (Frame.new, []) with
  | none => rw [hf] at h; cases h
  | some st =>
    obtain ⟨f, out⟩ := st
    rw [hf] at h
    cases out with
    | cons g out => cases h
    | nil =>
      cases h
      have h1 := evalStack_run e ts _ _ hf
      rw [evalStack_new, ok_bind] at h1
      rw [← h1, evalAlt_closeAlt]
      unfold evalStack evalOuts finish
      simp only [bind_assoc, pure_bind]

/-- Other tokens: no automaton. -/
theorem vrun_parse_none (e : Encoding) {ts : List Tok} (h : parse ts = none) (f : Fsm) : (do let v ← vrun e (VFrame.new, []) ts; finish e v) ≠ .ok f := by
  intro hc
  obtain ⟨v, h1, h2⟩ := res_bind' hc
  unfold parse at h
  cases hf : ts.foldlM step (Frame.new, []) with
  | none => exact vrun_none e ts _ hf _ (evalStack_new e) v h1
  | some st =>
    obtain ⟨g, out⟩ := st
    rw [hf] at h
    cases out with
    | nil => cases h
    | cons x out =>
      have h3 := evalStack_run e ts _ _ hf
      rw [evalStack_new, ok_bind, h1] at h3
      unfold evalStack at h3
      obtain ⟨vs, h4, h3⟩ := res_bind' h3
      obtain ⟨w, -, h3⟩ := res_bind' h3
      cases h3
      have := evalOuts_length e _ h4
      unfold finish at h2
      cases vs with
      | nil => cases this
      | cons y vs => cases h2

/-! ### Reversed bounds are the only loops -/

theorem closeTerm_total (e : Encoding) (f : VFrame) : (f.closeTerm e).Sat True fun _ => True := by
  unfold VFrame.closeTerm
  split
  · exact trivial
  · exact (appendIteration_total e _ _).bind fun _ _ => trivial

theorem closeConj_total (e : Encoding) (f : VFrame) : (f.closeConj e).Sat True fun _ => True := by
  unfold VFrame.closeConj
  refine (closeTerm_total e f).bind fun f _ => ?_
  dsimp only
  split
  · refine (lift_total _).bind fun n _ => ?_
    split
    · exact trivial
    · exact lift_total _
  · refine Res.Sat.bind (Q := fun _ => True) trivial fun n _ => ?_
    split
    · exact trivial
    · exact lift_total _

theorem closeAlt_total (e : Encoding) (f : VFrame) : (f.closeAlt e).Sat True fun _ => True := by
  unfold VFrame.closeAlt
  refine (closeConj_total e f).bind fun c _ => ?_
  split <;> exact trivial

theorem finish_total (e : Encoding) (st : VFrame × List VFrame) : (finish e st).Sat True fun _ => True := by
  unfold finish
  split
  · exact closeAlt_total e _
  · exact trivial

theorem vstep_total (e : Encoding) (st : VFrame × List VFrame) {t : Tok} (h : ∀ lo hi, t = .count lo (some hi) → lo ≤ hi) : (vstep e st t).Sat True fun _ => True := by
  obtain ⟨f, out⟩ := st
  cases t with
  | cls =>
    cases out with
    | nil => exact trivial
    | cons g out => exact (closeAlt_total e f).bind fun _ _ => trivial
  | bar => exact (closeAlt_total e f).bind fun _ _ => trivial
  | amp => exact (closeConj_total e f).bind fun _ _ => trivial
  | tilde =>
    simp only [vstep]
    split <;> exact trivial
  | count lo hi =>
    simp only [vstep]
    split
    · exact trivial
    · refine (convertToFsm_total e _).bind fun o _ => ?_
      refine (repeatAction_total o (lo := lo) (hi := hi) fun x hx => h lo x (by rw [hx])).bind fun x _ => ?_
      exact (appendIteration_total e _ _).bind fun _ _ => trivial
  | _ => exact (closeTerm_total e f).bind fun _ _ => trivial

theorem vrun_total (e : Encoding) : ∀ (ts : List Tok) (st : VFrame × List VFrame), OrderedCounts ts → (vrun e st ts).Sat True fun _ => True := by
  intro ts
  induction ts with
  | nil => intro st _; exact trivial
  | cons t ts ih =>
    intro st h
    rw [vrun]
    refine (vstep_total e st (t := t) fun lo hi hh => h lo hi (by rw [hh]; exact List.mem_cons_self)).bind fun o _ => ?_
    cases o with
    | none => exact trivial
    | some st => exact ih st h.tail

/-! ### Pulling tokens -/

/-- How the tokens end. -/
inductive Stop
  | eof (rest : List Nat)
  | error
  | bad

/-- How `tokensRead` stops. -/
def stops (F : List Feature) : Nat → List Nat → Stop
  | 0, _ => .bad
  | fuel + 1, s =>
    match lex F s with
    | .ok (some (_, s)) => stops F fuel s
    | .ok none => .eof (leftover s)
    | .throws => .error
    | .bad => .bad

/-- The end of a parse. -/
def conclude (e : Encoding) (stop : Stop) (r : Res (VFrame × List VFrame)) : Pulled :=
  match r with
  | .bad => .bad
  | .throws => .failed false
  | .ok v =>
    match stop with
    | .bad => .bad
    | .error => .failed true
    | .eof rest =>
      match finish e v with
      | .ok f => .done f rest
      | .throws => .failed false
      | .bad => .bad

/-- The parse in terms of the tokens that can be read. -/
theorem pull_eq (F : List Feature) (e : Encoding) : ∀ (fuel : Nat) (s : List Nat) (st : VFrame × List VFrame),
    pull F e fuel s st = conclude e (stops F fuel s) (vrun e st (tokensRead F fuel s)) := by
  intro fuel
  induction fuel with
  | zero => intro s st; rfl
  | succ fuel ih =>
    intro s st
    rw [pull, stops, tokensRead]
    cases hl : lex F s with
    | bad => rfl
    | throws =>
      have := finish_total e st
      simp only [vrun, conclude]
      cases hf : finish e st with
      | bad => rw [hf] at this; exact this.elim
      | throws => rfl
      | ok f => rfl
    | ok o =>
      cases o with
      | none =>
        simp only [vrun, conclude]
        cases finish e st <;> rfl
      | some p =>
        obtain ⟨t, s'⟩ := p
        simp only [vrun]
        cases hv : vstep e st t with
        | bad => rfl
        | throws => rfl
        | ok o =>
          cases o with
          | none => rfl
          | some st' => exact ih s' st'

theorem tokens_stops (F : List Feature) : ∀ (fuel : Nat) (s : List Nat),
    match tokens F fuel s with
    | .ok ts => tokensRead F fuel s = ts ∧ ∃ r, stops F fuel s = .eof r
    | .throws => stops F fuel s = .error
    | .bad => stops F fuel s = .bad := by
  intro fuel
  induction fuel with
  | zero => intro s; rfl
  | succ fuel ih =>
    intro s
    rw [tokens, tokensRead, stops]
    cases hl : lex F s with
    | bad => rfl
    | throws => rfl
    | ok o =>
      cases o with
      | none => exact ⟨rfl, _, rfl⟩
      | some p =>
        obtain ⟨t, s'⟩ := p
        have := ih s'
        rw [ok_bind]
        dsimp only
        cases ht : tokens F fuel s' with
        | bad => rw [ht] at this; exact this
        | throws => rw [ht] at this; exact this
        | ok ts =>
          rw [ht] at this
          exact ⟨by rw [this.1], this.2⟩

/-! ### `parsePattern` -/

variable {F : List Feature} {e : Encoding} {s : List Nat} {ts : List Tok}

/-- A pattern: what the actions make of its tree. -/
theorem parsePattern_tree (h : tokens F (s.length + 1) s = .ok ts) {t : Alt} (hp : parse ts = some t) : parsePattern F e s = evalAlt e t := by
  have h1 := tokens_stops F (s.length + 1) s
  rw [h] at h1
  obtain ⟨h2, r, h3⟩ := h1
  unfold parsePattern
  rw [pull_eq, h2, h3, ← vrun_parse e hp]
  cases vrun e (VFrame.new, []) ts with
  | bad => rfl
  | throws => rfl
  | ok v =>
    rw [ok_bind]
    simp only [conclude]
    cases finish e v <;> rfl

/-- An automaton is made only of a pattern. -/
theorem parsePattern_ok {f : Fsm} (h : parsePattern F e s = .ok f) : ∃ ts t, tokens F (s.length + 1) s = .ok ts ∧ parse ts = some t ∧ evalAlt e t = .ok f := by
  have h1 := tokens_stops F (s.length + 1) s
  unfold parsePattern at h
  rw [pull_eq] at h
  cases ht : tokens F (s.length + 1) s with
  | bad =>
    rw [ht] at h1
    dsimp only at h1
    rw [h1] at h
    cases hv : vrun e (VFrame.new, []) (tokensRead F (s.length + 1) s) <;> rw [hv] at h <;> cases h
  | throws =>
    rw [ht] at h1
    dsimp only at h1
    rw [h1] at h
    cases hv : vrun e (VFrame.new, []) (tokensRead F (s.length + 1) s) <;> rw [hv] at h <;> cases h
  | ok ts =>
    rw [ht] at h1
    obtain ⟨h2, r, h3⟩ := h1
    rw [h2, h3] at h
    have h4 : (do let v ← vrun e (VFrame.new, []) ts; finish e v) = .ok f := by
      cases hv : vrun e (VFrame.new, []) ts with
      | bad => rw [hv] at h; cases h
      | throws => rw [hv] at h; cases h
      | ok v =>
        rw [hv] at h
        simp only [conclude] at h
        rw [ok_bind]
        cases hf : finish e v with
        | bad => rw [hf] at h; cases h
        | throws => rw [hf] at h; cases h
        | ok g => rw [hf] at h; exact h
    cases hp : parse ts with
    | none => exact absurd h4 (vrun_parse_none e hp f)
    | some t => exact ⟨ts, t, rfl, hp, by rw [← vrun_parse e hp, h4]⟩

/-- If the lexer itself ends, a parse that does not end has read reversed bounds. -/
theorem parsePattern_ends (hl : tokens F (s.length + 1) s ≠ .bad) (ho : OrderedCounts (tokensRead F (s.length + 1) s)) : parsePattern F e s ≠ .bad := by
  have h1 := tokens_stops F (s.length + 1) s
  unfold parsePattern
  rw [pull_eq]
  have hv := vrun_total e _ (VFrame.new, []) ho
  cases hr : vrun e (VFrame.new, []) (tokensRead F (s.length + 1) s) with
  | bad => rw [hr] at hv; exact hv.elim
  | throws => intro h; cases h
  | ok v =>
    simp only [conclude]
    have hf := finish_total e v
    cases ht : tokens F (s.length + 1) s with
    | bad => exact absurd ht hl
    | throws =>
      rw [ht] at h1
      dsimp only at h1
      rw [h1]
      intro h; cases h
    | ok ts =>
      rw [ht] at h1
      obtain ⟨-, r, h3⟩ := h1
      rw [h3]
      dsimp only
      cases hf' : finish e v with
      | bad => rw [hf'] at hf; exact hf.elim
      | throws => intro h; cases h
      | ok f => intro h; cases h

/-- Tokens without a tree. -/
theorem parsePattern_none (h : tokens F (s.length + 1) s = .ok ts) (hp : parse ts = none) : ∀ f, parsePattern F e s ≠ .ok f := by
  intro f hf
  obtain ⟨ts', t, h1, h2, -⟩ := parsePattern_ok hf
  rw [h] at h1
  cases h1
  rw [hp] at h2
  cases h2

theorem parsePattern_syntax (h : tokens F (s.length + 1) s = .ok ts) (hp : parse ts = none) (ho : OrderedCounts ts) : parsePattern F e s = .throws := by
  have h1 := tokens_stops F (s.length + 1) s
  rw [h] at h1
  have h2 := parsePattern_ends (e := e) (F := F) (s := s) (by rw [h]; intro h; cases h) (by rw [h1.1]; exact ho)
  cases hr : parsePattern F e s with
  | ok f => exact absurd hr (parsePattern_none h hp f)
  | throws => rfl
  | bad => exact absurd hr h2

/-- The lexer throws. -/
theorem parsePattern_error (h : tokens F (s.length + 1) s = .throws) (ho : OrderedCounts (tokensRead F (s.length + 1) s)) : parsePattern F e s = .throws := by
  have h2 := parsePattern_ends (e := e) (F := F) (s := s) (by rw [h]; intro h; cases h) ho
  cases hr : parsePattern F e s with
  | ok f =>
    obtain ⟨ts, t, h1, -⟩ := parsePattern_ok hr
    rw [h] at h1
    cases h1
  | throws => rfl
  | bad => exact absurd hr h2

end Parse
end Pire
