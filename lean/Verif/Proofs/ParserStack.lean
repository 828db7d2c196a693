import Verif.Model.ParserStack
import Verif.Proofs.ParserTotal
import Mathlib.Data.List.Forall2
import Mathlib.Data.List.Nodup
import Mathlib.Tactic.Push

/-!
# The invariant of the parser's stack and heap
-/

namespace Pire.Stack

open Pire.Spec Pire.Lex Pire.Enc Pire.Parse

/-- The tokens a symbol on the stack stands for: its value is what the actions make of a tree that spells them. -/
inductive Means (e : Encoding) (cells : Nat → Option Held) (ret : Option Fsm) : Sym → Option Nat → List Tok → Prop
  | letters {a : Nat} {cs : Finset Nat} {neg : Bool} : cells a = some (.val (.range cs neg)) → Means e cells ret .letters (some a) [.letters cs neg]
  | count {a lo : Nat} {hi : Option Nat} : cells a = some (.count lo hi) → Means e cells ret .count (some a) [.count lo hi]
  | dot {a : Nat} : cells a = some (.val .dot) → Means e cells ret .dot (some a) [.dot]
  | bol {a : Nat} : cells a = some (.val .bol) → Means e cells ret .bol (some a) [.bol]
  | eol {a : Nat} : cells a = some (.val .eol) → Means e cells ret .eol (some a) [.eol]
  | opn : Means e cells ret .opn none [.opn]
  | cls : Means e cells ret .cls none [.cls]
  | bar : Means e cells ret .bar none [.bar]
  | and : Means e cells ret .and none [.amp]
  | not : Means e cells ret .not none [.tilde]
  | regexp {t : Alt} {f : Fsm} : evalAlt e t = .ok f → ret = some f → Means e cells ret .regexp none t.spell
  | alternative {a : Nat} {t : Alt} {f : Fsm} : evalAlt e t = .ok f → cells a = some (.val (.fsm f)) → Means e cells ret .alternative (some a) t.spell
  | conjunction {a : Nat} {t : Conj} {f : Fsm} : evalConj e t = .ok f → cells a = some (.val (.fsm f)) → Means e cells ret .conjunction (some a) t.spell
  | negation {a : Nat} {t : Neg} {f : Fsm} : evalNeg e t = .ok f → cells a = some (.val (.fsm f)) → Means e cells ret .negation (some a) t.spell
  | concatenation {a : Nat} {t : Cat} {f : Fsm} : evalCat e t = .ok f → cells a = some (.val (.fsm f)) → Means e cells ret .concatenation (some a) t.spell
  | iteration {a : Nat} {t : Iter} {v : Val} : evalIter e t = .ok v → cells a = some (.val v) → Means e cells ret .iteration (some a) t.spell
  | term {a : Nat} {t : Term} {v : Val} : evalTerm e t = .ok v → cells a = some (.val v) → Means e cells ret .term (some a) t.spell

variable {e : Encoding} {cells cells' : Nat → Option Held} {ret : Option Fsm}

theorem Means.congr {s : Sym} {p : Option Nat} {ts : List Tok} {ret' : Option Fsm} (h : Means e cells ret s p ts) (hc : ∀ a, p = some a → cells' a = cells a)
    (hr : s = .regexp → ret' = ret) : Means e cells' ret' s p ts := by
  cases h with
  | letters h => exact .letters ((hc _ rfl).trans h)
  | count h => exact .count ((hc _ rfl).trans h)
  | dot h => exact .dot ((hc _ rfl).trans h)
  | bol h => exact .bol ((hc _ rfl).trans h)
  | eol h => exact .eol ((hc _ rfl).trans h)
  | opn => exact .opn
  | cls => exact .cls
  | bar => exact .bar
  | and => exact .and
  | not => exact .not
  | regexp h1 h2 => exact .regexp h1 ((hr rfl).trans h2)
  | alternative h1 h => exact .alternative h1 ((hc _ rfl).trans h)
  | conjunction h1 h => exact .conjunction h1 ((hc _ rfl).trans h)
  | negation h1 h => exact .negation h1 ((hc _ rfl).trans h)
  | concatenation h1 h => exact .concatenation h1 ((hc _ rfl).trans h)
  | iteration h1 h => exact .iteration h1 ((hc _ rfl).trans h)
  | term h1 h => exact .term h1 ((hc _ rfl).trans h)

/-- The pointers. -/
def pointers (l : List Entry) : List Nat := l.filterMap Prod.snd

theorem mem_pointers {l : List Entry} {a : Nat} : a ∈ pointers l ↔ ∃ x ∈ l, x.2 = some a := by simp [pointers]

theorem pointers_append (l m : List Entry) : pointers (l ++ m) = pointers l ++ pointers m := List.filterMap_append

/-- What there is on the stack, with the token read before it. -/
def World.items (w : World) : List Entry := w.look.toList ++ w.stack

/-- The symbols stand for these tokens; their values are all there is on the heap, each of them once. -/
structure Inv (e : Encoding) (l : List Entry) (h : Heap) (ret : Option Fsm) (ts : List Tok) : Prop where
  nodup : (pointers l).Nodup
  live : ∀ a, h.cells a ≠ none ↔ a ∈ pointers l
  fresh : ∀ a ∈ pointers l, a < h.fresh
  means : ∃ ss : List (List Tok), List.Forall₂ (fun x s => Means e h.cells ret x.1 x.2 s) l ss ∧ ss.reverse.flatten = ts

theorem Inv.start : Inv e World.start.items Heap.empty none [] :=
  ⟨List.nodup_nil, fun a => by simp [Heap.empty, World.items, World.start, pointers], by simp [World.items, World.start, pointers], [], .nil, rfl⟩

/-- Symbols in the middle are replaced by one. -/
theorem Inv.replace {l old rest : List Entry} {new : Entry} {h h' : Heap} {ts : List Tok} {ret' : Option Fsm} (hi : Inv e (l ++ (old ++ rest)) h ret ts)
    (same : ∀ a, a ∉ pointers old → a ∉ pointers [new] → h'.cells a = h.cells a) (dead : ∀ a ∈ pointers old, a ∉ pointers [new] → h'.cells a = none)
    (born : ∀ a ∈ pointers [new], h'.cells a ≠ none ∧ a < h'.fresh ∧ (a ∈ pointers old ∨ h.fresh ≤ a)) (grows : h.fresh ≤ h'.fresh)
    (hret : ∀ x ∈ l ++ rest, x.1 = .regexp → ret' = ret)
    (mean : ∀ ss, List.Forall₂ (fun x s => Means e h.cells ret x.1 x.2 s) old ss → Means e h'.cells ret' new.1 new.2 ss.reverse.flatten) :
    Inv e (l ++ (new :: rest)) h' ret' ts := by
  obtain ⟨h1, h2, h3, ss, h4, h5⟩ := hi
  rw [pointers_append, pointers_append] at h1 h2 h3
  have e0 : pointers (l ++ (new :: rest)) = pointers l ++ (pointers [new] ++ pointers rest) := by
    rw [pointers_append, show new :: rest = [new] ++ rest from rfl, pointers_append]
  obtain ⟨n1, n2, n3⟩ := List.nodup_append.1 h1
  obtain ⟨n4, n5, n6⟩ := List.nodup_append.1 n2
  have nl : ∀ a ∈ pointers l, a ∉ pointers [new] ∧ a ∉ pointers old ∧ a ∉ pointers rest := by
    intro a ha
    have ho : a ∉ pointers old := fun hx => n3 a ha a (by simp [hx]) rfl
    refine ⟨fun hx => ?_, ho, fun hx => n3 a ha a (by simp [hx]) rfl⟩
    rcases (born a hx).2.2 with hy | hy
    · exact ho hy
    · have := h3 a (by simp [ha]); omega
  have nr : ∀ a ∈ pointers rest, a ∉ pointers [new] ∧ a ∉ pointers old := by
    intro a ha
    have ho : a ∉ pointers old := fun hx => n6 a hx a ha rfl
    refine ⟨fun hx => ?_, ho⟩
    rcases (born a hx).2.2 with hy | hy
    · exact ho hy
    · have := h3 a (by simp [ha]); omega
  refine ⟨?_, ?_, ?_, ?_⟩
  · rw [e0]
    refine List.nodup_append.2 ⟨n1, List.nodup_append.2 ⟨?_, n5, ?_⟩, ?_⟩
    · obtain ⟨s, p⟩ := new
      cases p <;> simp [pointers]
    · rintro a ha b hb rfl; exact (nr a hb).1 ha
    · rintro a ha b hb rfl
      rcases List.mem_append.1 hb with hb | hb
      · exact (nl a ha).1 hb
      · exact (nl a ha).2.2 hb
  · intro a
    rw [e0, List.mem_append, List.mem_append]
    by_cases hn : a ∈ pointers [new]
    · simp [hn, (born a hn).1]
    · by_cases ho : a ∈ pointers old
      · have hl : a ∉ pointers l := fun hx => (nl a hx).2.1 ho
        have hr : a ∉ pointers rest := fun hx => (nr a hx).2 ho
        simp [hn, hl, hr, dead a ho hn]
      · rw [same a ho hn, h2 a]
        simp [hn, ho]
  · intro a ha
    rw [e0, List.mem_append, List.mem_append] at ha
    rcases ha with ha | ha | ha
    · have := h3 a (by simp [ha]); omega
    · exact (born a ha).2.1
    · have := h3 a (by simp [ha]); omega
  · obtain ⟨sl, sm, f1, f2, rfl⟩ : ∃ sl sm, List.Forall₂ _ l sl ∧ List.Forall₂ _ (old ++ rest) sm ∧ ss = sl ++ sm := by
      have := List.forall₂_iff_get.1 h4
      refine ⟨ss.take l.length, ss.drop l.length, ?_, ?_, (List.take_append_drop _ _).symm⟩
      · have := List.forall₂_take l.length h4
        rwa [List.take_left'] at this
        rfl
      · have := List.forall₂_drop l.length h4
        rwa [List.drop_left'] at this
        rfl
    obtain ⟨so, sr, f3, f4, rfl⟩ : ∃ so sr, List.Forall₂ _ old so ∧ List.Forall₂ _ rest sr ∧ sm = so ++ sr := by
      refine ⟨sm.take old.length, sm.drop old.length, ?_, ?_, (List.take_append_drop _ _).symm⟩
      · have := List.forall₂_take old.length f2
        rwa [List.take_left'] at this
        rfl
      · have := List.forall₂_drop old.length f2
        rwa [List.drop_left'] at this
        rfl
    have keep : ∀ (m : List Entry) (sm : List (List Tok)), (∀ a ∈ pointers m, a ∉ pointers [new] ∧ a ∉ pointers old) → (∀ x ∈ m, x.1 = .regexp → ret' = ret) →
        List.Forall₂ (fun x s => Means e h.cells ret x.1 x.2 s) m sm → List.Forall₂ (fun x s => Means e h'.cells ret' x.1 x.2 s) m sm := by
      intro m sm hm hq hf
      induction hf with
      | nil => exact .nil
      | @cons x s m sm hx _ ih =>
        refine .cons (hx.congr (fun a ha => ?_) (hq x (by simp))) (ih (fun a ha => hm a ?_) fun y hy => hq y (by simp [hy]))
        · have := hm a (mem_pointers.2 ⟨x, by simp, ha⟩)
          exact same a this.2 this.1
        · obtain ⟨y, hy, hya⟩ := mem_pointers.1 ha
          exact mem_pointers.2 ⟨y, by simp [hy], hya⟩
    refine ⟨sl ++ (so.reverse.flatten :: sr), List.rel_append (keep l sl (fun a ha => ⟨(nl a ha).1, (nl a ha).2.1⟩) (fun x hx => hret x (by simp [hx])) f1)
      (.cons (mean so f3) (keep rest sr nr (fun x hx => hret x (by simp [hx])) f4)), ?_⟩
    rw [← h5]
    simp

/-! ### Operations on the heap -/

theorem did_bind {α β : Type} (a : α) (f : α → Did β) : (Did.ok a >>= f) = f a := rfl

theorem held_some {h : Heap} {a : Nat} {v : Held} (hv : h.cells a = some v) : h.held (some a) = .ok v := by simp [Heap.held, hv]

theorem put_some {h : Heap} {a : Nat} {u : Held} (hv : h.cells a = some u) (v : Held) : h.put (some a) v = .ok { h with cells := Function.update h.cells a (some v) } := by
  simp [Heap.put, hv]

theorem delete_some {h : Heap} {a : Nat} {u : Held} (hv : h.cells a = some u) : h.delete (some a) = .ok { h with cells := Function.update h.cells a none } := by
  simp [Heap.delete, hv]

theorem delete_none (h : Heap) : h.delete none = .ok h := rfl

theorem convert_val {h : Heap} {a : Nat} {v : Val} {f : Fsm} (hv : h.cells a = some (.val v)) (hf : convertToFsm e v = .ok f) :
    convert e h (some a) = .ok (f, { h with cells := Function.update h.cells a (some (.val (.fsm f))) }) := by
  unfold convert
  rw [held_some hv, did_bind]
  dsimp only
  rw [hf]
  simp only [run]
  rw [did_bind, put_some hv, did_bind]
  rfl

theorem convert_throws {h : Heap} {a : Nat} {v : Val} (hv : h.cells a = some (.val v)) (hf : convertToFsm e v = .throws) : convert e h (some a) = .throws h := by
  unfold convert
  rw [held_some hv, did_bind]
  dsimp only
  rw [hf]
  rfl

theorem convert_fsm {h : Heap} {a : Nat} {f : Fsm} (hv : h.cells a = some (.val (.fsm f))) : convert e h (some a) = .ok (f, h) := by
  rw [convert_val hv rfl, ← hv, Function.update_eq_self]

theorem lift_ne_bad (o : Option Fsm) : lift o ≠ .bad := by cases o <;> simp [lift]

theorem appendRange_ne_bad (a : Fsm) (cs : Finset Nat) : appendRange e a cs ≠ .bad := by
  unfold appendRange
  dsimp only
  split
  · simp
  · exact lift_ne_bad _

theorem bind_ne_bad {α β : Type} {r : Res α} {f : α → Res β} (h : r ≠ .bad) (hf : ∀ a, f a ≠ .bad) : (r >>= f) ≠ .bad := by
  cases r with
  | ok a => exact hf a
  | throws => intro hx; cases hx
  | bad => exact absurd rfl h

theorem convertToFsm_ne_bad (v : Val) : convertToFsm e v ≠ .bad := by
  cases v with
  | range cs neg =>
    unfold convertToFsm
    refine bind_ne_bad (appendRange_ne_bad _ _) fun a => ?_
    cases neg with
    | false => intro hx; cases hx
    | true =>
      refine bind_ne_bad (lift_ne_bad _) fun x => bind_ne_bad (lift_ne_bad _) fun y hx => ?_
      cases hx
  | _ => intro hx; cases hx

theorem appendIteration_ne_bad (a : Fsm) (v : Val) : appendIteration e a v ≠ .bad := by
  have hc : (do let b ← convertToFsm e v; Res.ok (a.concat b)) ≠ .bad := bind_ne_bad (convertToFsm_ne_bad v) fun b hx => by cases hx
  cases v with
  | range cs neg =>
    cases neg with
    | false => exact appendRange_ne_bad a cs
    | true => exact hc
  | dot => intro hx; cases hx
  | _ => exact hc

theorem repeatAction_ok (orig : Fsm) {lo : Nat} {hi : Option Nat} (h : ∀ n, hi = some n → lo ≤ n) : ∃ f, repeatAction orig lo hi = .ok f := by
  unfold repeatAction
  split_ifs
  · exact ⟨_, rfl⟩
  · exact ⟨_, rfl⟩
  · exact ⟨_, rfl⟩
  · cases hi with
    | none => exact ⟨_, rfl⟩
    | some n =>
      have := h n rfl
      dsimp only
      split_ifs
      · exact ⟨_, rfl⟩
      · omega
      · exact ⟨_, rfl⟩

/-! ### One step -/

/-- Part of the tokens is spelled by a tree whose evaluation throws. -/
def ThrowsIn (e : Encoding) (ts : List Tok) : Prop := ∃ t1 t2 t3 t, ts = t1 ++ (t2 ++ t3) ∧ Alt.spell t = t2 ∧ evalAlt e t = .throws

/-- The invariant; after an exception something is left on the heap. -/
def Fine (e : Encoding) (ts : List Tok) : Did World → Prop
  | .ok w => Inv e w.items w.heap w.ret ts
  | .throws h => (∃ a, h.cells a ≠ none) ∧ ThrowsIn e ts
  | .bad => False

theorem Inv.top {l old rest : List Entry} {h : Heap} {ts : List Tok} (hi : Inv e (l ++ (old ++ rest)) h ret ts) :
    ∃ so t1 t3, List.Forall₂ (fun x s => Means e h.cells ret x.1 x.2 s) old so ∧ ts = t1 ++ (so.reverse.flatten ++ t3) ∧ (pointers old).Nodup ∧ ∀ a ∈ pointers old, a < h.fresh := by
  obtain ⟨h1, -, h3, ss, h4, h5⟩ := hi
  rw [pointers_append, pointers_append] at h1 h3
  have f2 : List.Forall₂ (fun x s => Means e h.cells ret x.1 x.2 s) (old ++ rest) (ss.drop l.length) := by
    have := List.forall₂_drop l.length h4
    rwa [List.drop_left'] at this
    rfl
  have f3 : List.Forall₂ (fun x s => Means e h.cells ret x.1 x.2 s) old ((ss.drop l.length).take old.length) := by
    have := List.forall₂_take old.length f2
    rwa [List.take_left'] at this
    rfl
  refine ⟨_, ((ss.drop l.length).drop old.length).reverse.flatten, (ss.take l.length).reverse.flatten, f3, ?_, (List.nodup_append.1 (List.nodup_append.1 h1).2.1).1,
    fun a ha => h3 a (by simp [ha])⟩
  rw [← h5]
  have hs : ss = ss.take l.length ++ ((ss.drop l.length).take old.length ++ (ss.drop l.length).drop old.length) := by
    rw [List.take_append_drop, List.take_append_drop]
  have := congrArg (fun x => (List.reverse x).flatten) hs
  simp only [List.reverse_append, List.flatten_append, List.append_assoc] at this
  exact this

/-- Only the symbol changes. -/
theorem Inv.rename {l rest : List Entry} {s s' : Sym} {p : Option Nat} {h : Heap} {ts : List Tok} (hi : Inv e (l ++ ((s, p) :: rest)) h ret ts)
    (hm : ∀ ts, Means e h.cells ret s p ts → Means e h.cells ret s' p ts) : Inv e (l ++ ((s', p) :: rest)) h ret ts := by
  have hp : pointers [(s', p)] = pointers [(s, p)] := by cases p <;> simp [pointers]
  obtain ⟨so, t1, t3, f, -, -, hf⟩ := Inv.top (old := [(s, p)]) hi
  refine Inv.replace (old := [(s, p)]) hi (fun _ _ _ => rfl) ?_ ?_ le_rfl (fun _ _ _ => rfl) ?_
  · intro a h1 h2; rw [hp] at h2; exact absurd h1 h2
  · intro a ha
    rw [hp] at ha
    refine ⟨(hi.live a).2 ?_, hf a ha, .inl ha⟩
    rw [show l ++ ((s, p) :: rest) = l ++ ([(s, p)] ++ rest) from rfl, pointers_append, pointers_append]
    simp [ha]
  · intro ss hs
    cases hs with
    | @cons _ b _ _ h1 h2 =>
      cases h2
      simpa using hm _ h1

theorem Inv.some_live {l old rest : List Entry} {h : Heap} {ts : List Tok} (hi : Inv e (l ++ (old ++ rest)) h ret ts) {a : Nat} (ha : a ∈ pointers old) : h.cells a ≠ none := by
  refine (hi.live a).2 ?_
  rw [pointers_append, pointers_append]
  simp [ha]

/-- A token is being read. -/
def World.Ok (w : World) : Prop := ∀ x ∈ w.look.toList, x.1 ≠ .regexp

theorem reduce_regexp {ts : List Tok} {p1 : Option Nat} {w : World} (hi : Inv e (w.look.toList ++ ([(.alternative, p1)] ++ [])) w.heap w.ret ts) (hl : w.Ok) {r : Did World}
    (hr : (do
      let (f, h) ← convert e w.heap p1
      let h ← h.delete p1
      return { w with stack := [(.regexp, none)], heap := h, ret := some f } : Did World) = r) : Fine e ts r := by
  obtain ⟨so, t1, t3, f, -, -, hf⟩ := hi.top
  rcases f with _ | ⟨h1, h2⟩
  cases h2
  dsimp only at h1
  cases h1 with
  | @alternative a t f h1 h2 =>
  rw [convert_fsm h2, did_bind] at hr
  dsimp only at hr
  rw [delete_some h2, did_bind] at hr
  subst hr
  refine Inv.replace (new := (.regexp, none)) hi ?_ ?_ ?_ le_rfl ?_ ?_
  · intro b hb _
    have : b ≠ a := by rintro rfl; simp [pointers] at hb
    simp [Function.update_of_ne this]
  · intro b hb _
    have : b = a := by simpa [pointers] using hb
    simp [this]
  · intro b hb; simp [pointers] at hb
  · intro x hx h; exact absurd h (hl x (by simpa using hx))
  · intro ss hs
    rcases hs with _ | ⟨h3, h4⟩
    cases h4
    dsimp only at h3
    cases h3 with
    | @alternative _ t' f' h5 h6 =>
    rw [h2] at h6
    cases h6
    simp only [List.reverse_cons, List.reverse_nil, List.nil_append, List.flatten_cons, List.flatten_nil, List.append_nil]
    exact .regexp h5 rfl

theorem reduce_altOr {ts : List Tok} {p1 p2 p3 : Option Nat} {s : List Entry} {w : World}
    (hi : Inv e (w.look.toList ++ ([(.conjunction, p3), (.bar, p2), (.alternative, p1)] ++ s)) w.heap w.ret ts) {r : Did World}
    (hr : (do
      let (y, h) ← convert e w.heap p3
      let (x, h) ← convert e h p1
      let h ← h.put p1 (.val (.fsm (x.union y)))
      let h ← h.delete p2
      let h ← h.delete p3
      return { w with stack := (.alternative, p1) :: s, heap := h } : Did World) = r) : Fine e ts r := by
  obtain ⟨so, t1, t3, f, -, hn, hf⟩ := hi.top
  rcases f with _ | ⟨h3, f⟩
  rcases f with _ | ⟨h2, f⟩
  rcases f with _ | ⟨h1, f⟩
  cases f
  dsimp only at h1 h2 h3
  cases h1 with
  | @alternative a ta x ea ca =>
  cases h2
  cases h3 with
  | @conjunction c tc y ec cc =>
  have hne : c ≠ a := by simpa [pointers] using hn
  rw [convert_fsm cc, did_bind] at hr
  dsimp only at hr
  rw [convert_fsm ca, did_bind] at hr
  dsimp only at hr
  rw [put_some ca, did_bind, delete_none, did_bind, delete_some (u := .val (.fsm y)) (by simp [Function.update_of_ne hne, cc]), did_bind] at hr
  subst hr
  refine Inv.replace (new := (.alternative, some a)) hi ?_ ?_ ?_ le_rfl (fun _ _ _ => rfl) ?_
  · intro b hb _
    have : b ≠ a ∧ b ≠ c := by constructor <;> rintro rfl <;> simp [pointers] at hb
    simp [Function.update_of_ne this.1, Function.update_of_ne this.2]
  · intro b hb hb'
    have : b = c := by simpa [pointers, show b ≠ a by rintro rfl; simp [pointers] at hb'] using hb
    simp [this]
  · intro b hb
    have : b = a := by simpa [pointers] using hb
    subst this
    exact ⟨by simp [Function.update_of_ne hne.symm], hf b (by simp [pointers]), .inl (by simp [pointers])⟩
  · intro ss hs
    rcases hs with _ | ⟨g3, g⟩
    rcases g with _ | ⟨g2, g⟩
    rcases g with _ | ⟨g1, g⟩
    cases g
    dsimp only at g1 g2 g3
    cases g2
    cases g1 with
    | @alternative _ t1 x1 e1 c1 =>
    rw [ca] at c1; cases c1
    cases g3 with
    | @conjunction _ t3 y3 e3 c3 =>
    rw [cc] at c3; cases c3
    have := Means.alternative (e := e) (ret := w.ret) (cells := Function.update (Function.update w.heap.cells a (some (.val (.fsm (x.union y))))) c none) (a := a)
      (t := .or t1 t3) (f := x.union y) (by rw [evalAlt, e1, e3]; rfl) (by simp [Function.update_of_ne hne.symm])
    simpa [Alt.spell] using this

theorem reduce_conjAnd {ts : List Tok} {p1 p2 p3 : Option Nat} {s : List Entry} {w : World}
    (hi : Inv e (w.look.toList ++ ([(.negation, p3), (.and, p2), (.conjunction, p1)] ++ s)) w.heap w.ret ts) {r : Did World}
    (hr : (do
      let (y, h) ← convert e w.heap p3
      let (x, h) ← convert e h p1
      let z ← run h (lift (x.inter y))
      let h ← h.put p1 (.val (.fsm z))
      let h ← h.delete p2
      let h ← h.delete p3
      return { w with stack := (.conjunction, p1) :: s, heap := h } : Did World) = r) : Fine e ts r := by
  obtain ⟨so, u1, u3, f, hts, hn, hf⟩ := hi.top
  rcases f with _ | ⟨h3, f⟩
  rcases f with _ | ⟨h2, f⟩
  rcases f with _ | ⟨h1, f⟩
  cases f
  dsimp only at h1 h2 h3
  cases h1 with
  | @conjunction a ta x ea ca =>
  cases h2
  cases h3 with
  | @negation c tc y ec cc =>
  have hne : c ≠ a := by simpa [pointers] using hn
  rw [convert_fsm cc, did_bind] at hr
  dsimp only at hr
  rw [convert_fsm ca, did_bind] at hr
  dsimp only at hr
  cases hz : x.inter y with
  | none =>
    rw [hz] at hr
    subst hr
    refine ⟨⟨a, by rw [ca]; simp⟩, u1, _, u3, .one (.and ta tc), hts, ?_, ?_⟩
    · simp [Alt.spell, Conj.spell]
    · rw [evalAlt, evalConj, ea, ec]
      show lift (x.inter y) = _
      rw [hz]; rfl
  | some z =>
  rw [hz] at hr
  simp only [lift, run] at hr
  rw [did_bind, put_some ca, did_bind, delete_none, did_bind, delete_some (u := .val (.fsm y)) (by simp [Function.update_of_ne hne, cc]), did_bind] at hr
  subst hr
  refine Inv.replace (new := (.conjunction, some a)) hi ?_ ?_ ?_ le_rfl (fun _ _ _ => rfl) ?_
  · intro b hb _
    have : b ≠ a ∧ b ≠ c := by constructor <;> rintro rfl <;> simp [pointers] at hb
    simp [Function.update_of_ne this.1, Function.update_of_ne this.2]
  · intro b hb hb'
    have : b = c := by simpa [pointers, show b ≠ a by rintro rfl; simp [pointers] at hb'] using hb
    simp [this]
  · intro b hb
    have : b = a := by simpa [pointers] using hb
    subst this
    exact ⟨by simp [Function.update_of_ne hne.symm], hf b (by simp [pointers]), .inl (by simp [pointers])⟩
  · intro ss hs
    rcases hs with _ | ⟨g3, g⟩
    rcases g with _ | ⟨g2, g⟩
    rcases g with _ | ⟨g1, g⟩
    cases g
    dsimp only at g1 g2 g3
    cases g2
    cases g1 with
    | @conjunction _ t1 x1 e1 c1 =>
    rw [ca] at c1; cases c1
    cases g3 with
    | @negation _ t3 y3 e3 c3 =>
    rw [cc] at c3; cases c3
    have := Means.conjunction (e := e) (ret := w.ret) (cells := Function.update (Function.update w.heap.cells a (some (.val (.fsm z)))) c none) (a := a)
      (t := .and t1 t3) (f := z) (by rw [evalConj, e1, e3]; show lift (x.inter y) = _; rw [hz]; rfl) (by simp [Function.update_of_ne hne.symm])
    simpa [Conj.spell] using this

theorem reduce_negNot {ts : List Tok} {p1 p2 : Option Nat} {s : List Entry} {w : World}
    (hi : Inv e (w.look.toList ++ ([(.concatenation, p2), (.not, p1)] ++ s)) w.heap w.ret ts) {r : Did World}
    (hr : (do
      let (x, h) ← convert e w.heap p2
      let z ← run h (lift x.complement)
      let h ← h.put p2 (.val (.fsm z))
      let h ← h.delete p1
      return { w with stack := (.negation, p2) :: s, heap := h } : Did World) = r) : Fine e ts r := by
  obtain ⟨so, u1, u3, f, hts, hn, hf⟩ := hi.top
  rcases f with _ | ⟨h2, f⟩
  rcases f with _ | ⟨h1, f⟩
  cases f
  dsimp only at h1 h2
  cases h1
  cases h2 with
  | @concatenation a ta x ea ca =>
  rw [convert_fsm ca, did_bind] at hr
  dsimp only at hr
  cases hz : x.complement with
  | none =>
    rw [hz] at hr
    subst hr
    refine ⟨⟨a, by rw [ca]; simp⟩, u1, _, u3, .one (.one (.not ta)), hts, ?_, ?_⟩
    · simp [Alt.spell, Conj.spell, Neg.spell]
    · rw [evalAlt, evalConj, evalNeg, ea]
      show lift x.complement = _
      rw [hz]; rfl
  | some z =>
  rw [hz] at hr
  simp only [lift, run] at hr
  rw [did_bind, put_some ca, did_bind, delete_none, did_bind] at hr
  subst hr
  refine Inv.replace (new := (.negation, some a)) hi ?_ ?_ ?_ le_rfl (fun _ _ _ => rfl) ?_
  · intro b hb _
    have : b ≠ a := by rintro rfl; simp [pointers] at hb
    simp [Function.update_of_ne this]
  · intro b hb hb'
    exfalso
    exact hb' (by simpa [pointers] using hb)
  · intro b hb
    have : b = a := by simpa [pointers] using hb
    subst this
    exact ⟨by simp, hf b (by simp [pointers]), .inl (by simp [pointers])⟩
  · intro ss hs
    rcases hs with _ | ⟨g2, g⟩
    rcases g with _ | ⟨g1, g⟩
    cases g
    dsimp only at g1 g2
    cases g1
    cases g2 with
    | @concatenation _ t1 x1 e1 c1 =>
    rw [ca] at c1; cases c1
    have := Means.negation (e := e) (ret := w.ret) (cells := Function.update w.heap.cells a (some (.val (.fsm z)))) (a := a)
      (t := .not t1) (f := z) (by rw [evalNeg, e1]; show lift x.complement = _; rw [hz]; rfl) (by simp)
    simpa [Neg.spell] using this

theorem reduce_catNil {ts : List Tok} {s : List Entry} {w : World} (hi : Inv e (w.look.toList ++ ([] ++ s)) w.heap w.ret ts) :
    Fine e ts (.ok { w with stack := (.concatenation, some w.heap.fresh) :: s, heap := w.heap.new (.val (.fsm Fsm.init)) }) := by
  refine Inv.replace (new := (.concatenation, some w.heap.fresh)) hi ?_ ?_ ?_ (Nat.le_succ _) (fun _ _ _ => rfl) ?_
  · intro b _ hb
    have : b ≠ w.heap.fresh := by rintro rfl; simp [pointers] at hb
    simp [Heap.new, Function.update_of_ne this]
  · intro b hb; simp [pointers] at hb
  · intro b hb
    have : b = w.heap.fresh := by simpa [pointers] using hb
    subst this
    exact ⟨by simp [Heap.new], by simp [Heap.new], .inr le_rfl⟩
  · intro ss hs
    cases hs
    exact .concatenation (t := .nil) rfl (by simp [Heap.new])

theorem reduce_catSnoc {ts : List Tok} {p1 p2 : Option Nat} {s : List Entry} {w : World}
    (hi : Inv e (w.look.toList ++ ([(.iteration, p2), (.concatenation, p1)] ++ s)) w.heap w.ret ts) {r : Did World}
    (hr : (do
      let (a, h) ← convert e w.heap p1
      match ← h.held p2 with
      | .count _ _ => .throws h
      | .val v =>
        let a ← run h (appendIteration e a v)
        let h ← h.put p1 (.val (.fsm a))
        let h ← h.delete p2
        return { w with stack := (.concatenation, p1) :: s, heap := h } : Did World) = r) : Fine e ts r := by
  obtain ⟨so, u1, u3, f, hts, hn, hf⟩ := hi.top
  rcases f with _ | ⟨h2, f⟩
  rcases f with _ | ⟨h1, f⟩
  cases f
  dsimp only at h1 h2
  cases h1 with
  | @concatenation a ta x ea ca =>
  cases h2 with
  | @iteration c tc v ec cc =>
  have hne : c ≠ a := by simpa [pointers] using hn
  rw [convert_fsm ca, did_bind] at hr
  dsimp only at hr
  rw [held_some cc, did_bind] at hr
  dsimp only at hr
  cases hz : appendIteration e x v with
  | bad => exact absurd hz (appendIteration_ne_bad _ _)
  | throws =>
    rw [hz] at hr
    subst hr
    refine ⟨⟨a, by rw [ca]; simp⟩, u1, _, u3, .one (.one (.one (.snoc ta tc))), hts, ?_, ?_⟩
    · simp [Alt.spell, Conj.spell, Neg.spell, Cat.spell]
    · rw [evalAlt, evalConj, evalNeg, evalCat, ea, ec]
      exact hz
  | ok z =>
  rw [hz] at hr
  simp only [run] at hr
  rw [did_bind, put_some ca, did_bind, delete_some (u := .val v) (by simp [Function.update_of_ne hne, cc]), did_bind] at hr
  subst hr
  refine Inv.replace (new := (.concatenation, some a)) hi ?_ ?_ ?_ le_rfl (fun _ _ _ => rfl) ?_
  · intro b hb _
    have : b ≠ a ∧ b ≠ c := by constructor <;> rintro rfl <;> simp [pointers] at hb
    simp [Function.update_of_ne this.1, Function.update_of_ne this.2]
  · intro b hb hb'
    have : b = c := by simpa [pointers, show b ≠ a by rintro rfl; simp [pointers] at hb'] using hb
    simp [this]
  · intro b hb
    have : b = a := by simpa [pointers] using hb
    subst this
    exact ⟨by simp [Function.update_of_ne hne.symm], hf b (by simp [pointers]), .inl (by simp [pointers])⟩
  · intro ss hs
    rcases hs with _ | ⟨g2, g⟩
    rcases g with _ | ⟨g1, g⟩
    cases g
    dsimp only at g1 g2
    cases g1 with
    | @concatenation _ t1 x1 e1 c1 =>
    rw [ca] at c1; cases c1
    cases g2 with
    | @iteration _ t2 v2 e2 c2 =>
    rw [cc] at c2; cases c2
    have := Means.concatenation (e := e) (ret := w.ret) (cells := Function.update (Function.update w.heap.cells a (some (.val (.fsm z)))) c none) (a := a)
      (t := .snoc t1 t2) (f := z) (by rw [evalCat, e1, e2]; exact hz) (by simp [Function.update_of_ne hne.symm])
    simpa [Cat.spell] using this

theorem reduce_iterRep {ts : List Tok} {p1 p2 : Option Nat} {s : List Entry} {w : World}
    (hi : Inv e (w.look.toList ++ ([(.count, p2), (.term, p1)] ++ s)) w.heap w.ret ts) (hc : OrderedCounts ts) {r : Did World}
    (hr : (do
      let (orig, h) ← convert e w.heap p1
      let p := some h.fresh
      let h := h.new (.val (.fsm orig))
      match ← h.held p2 with
      | .val _ => .throws h
      | .count lo hi =>
        let cur ← run h (repeatAction orig lo hi)
        let h ← h.put p (.val (.fsm cur))
        let h ← h.delete p1
        let h ← h.delete p2
        return { w with stack := (.iteration, p) :: s, heap := h } : Did World) = r) : Fine e ts r := by
  obtain ⟨so, u1, u3, f, hts, hn, hf⟩ := hi.top
  rcases f with _ | ⟨h2, f⟩
  rcases f with _ | ⟨h1, f⟩
  cases f
  dsimp only at h1 h2
  cases h1 with
  | @term a ta v ea ca =>
  cases h2 with
  | @count c lo hi' cc =>
  have hne : c ≠ a := by simpa [pointers] using hn
  have hord : ∀ n, hi' = some n → lo ≤ n := by
    rintro n rfl
    exact hc lo n (by rw [hts]; simp)
  have fa : a < w.heap.fresh := hf a (by simp [pointers])
  have fc : c < w.heap.fresh := hf c (by simp [pointers])
  cases hv : convertToFsm e v with
  | bad => exact absurd hv (convertToFsm_ne_bad _)
  | throws =>
    rw [convert_throws ca hv] at hr
    subst hr
    refine ⟨⟨a, by rw [ca]; simp⟩, u1, _, u3, .one (.one (.one (.snoc .nil (.rep ta lo hi')))), hts, ?_, ?_⟩
    · simp [Alt.spell, Conj.spell, Neg.spell, Cat.spell, Iter.spell]
    · rw [evalAlt, evalConj, evalNeg, evalCat, evalCat, evalIter, ea]
      show (((convertToFsm e v).bind _).bind _) = _
      rw [hv]; rfl
  | ok orig =>
  obtain ⟨cur, hcur⟩ := repeatAction_ok orig hord
  rw [convert_val ca hv, did_bind] at hr
  dsimp only at hr
  rw [held_some (v := .count lo hi') (by simp [Heap.new, Function.update_of_ne (show c ≠ w.heap.fresh by omega), Function.update_of_ne hne, cc]), did_bind] at hr
  dsimp only at hr
  rw [hcur] at hr
  simp only [run] at hr
  rw [did_bind, put_some (u := .val (.fsm orig)) (by simp [Heap.new]), did_bind,
    delete_some (u := .val (.fsm orig)) (by simp [Heap.new, Function.update_of_ne (show a ≠ w.heap.fresh by omega)]), did_bind,
    delete_some (u := .count lo hi') (by simp [Heap.new, Function.update_of_ne (show c ≠ w.heap.fresh by omega), Function.update_of_ne hne, cc]), did_bind] at hr
  subst hr
  refine Inv.replace (new := (.iteration, some w.heap.fresh)) hi ?_ ?_ ?_ (Nat.le_succ _) (fun _ _ _ => rfl) ?_
  · intro b hb hb'
    have : b ≠ a ∧ b ≠ c := by constructor <;> rintro rfl <;> simp [pointers] at hb
    have h3 : b ≠ w.heap.fresh := by rintro rfl; simp [pointers] at hb'
    simp [Heap.new, Function.update_of_ne this.1, Function.update_of_ne this.2, Function.update_of_ne h3]
  · intro b hb hb'
    have : b = c ∨ b = a := by simpa [pointers] using hb
    rcases this with rfl | rfl
    · simp [Heap.new]
    · simp [Heap.new, Function.update_of_ne hne.symm]
  · intro b hb
    have : b = w.heap.fresh := by simpa [pointers] using hb
    subst this
    refine ⟨?_, Nat.lt_succ_self _, .inr le_rfl⟩
    simp [Heap.new, Function.update_of_ne (show w.heap.fresh ≠ a by omega), Function.update_of_ne (show w.heap.fresh ≠ c by omega)]
  · intro ss hs
    rcases hs with _ | ⟨g2, g⟩
    rcases g with _ | ⟨g1, g⟩
    cases g
    dsimp only at g1 g2
    cases g1 with
    | @term _ t1 v1 e1 c1 =>
    rw [ca] at c1; cases c1
    cases g2 with
    | @count _ lo2 hi2 c2 =>
    rw [cc] at c2; cases c2
    rw [show ([[Tok.count lo hi'], t1.spell].reverse.flatten) = (Iter.rep t1 lo hi').spell by simp [Iter.spell]]
    refine .iteration (v := .fsm cur) ?_ ?_
    · rw [evalIter, e1]
      show ((convertToFsm e v).bind _) = _
      rw [hv]
      show ((repeatAction orig lo hi').bind _) = _
      rw [hcur]; rfl
    · simp [Heap.new, Function.update_of_ne (show w.heap.fresh ≠ a by omega), Function.update_of_ne (show w.heap.fresh ≠ c by omega)]

theorem reduce_termGroup {ts : List Tok} {p1 p2 p3 : Option Nat} {s : List Entry} {w : World}
    (hi : Inv e (w.look.toList ++ ([(.cls, p3), (.alternative, p2), (.opn, p1)] ++ s)) w.heap w.ret ts) {r : Did World}
    (hr : (do
      match ← w.heap.held p2 with
      | .val (.fsm _) =>
        let h ← w.heap.delete p1
        let h ← h.delete p3
        return { w with stack := (.term, p2) :: s, heap := h }
      | _ => .throws w.heap : Did World) = r) : Fine e ts r := by
  obtain ⟨so, u1, u3, f, hts, hn, hf⟩ := hi.top
  rcases f with _ | ⟨h3, f⟩
  rcases f with _ | ⟨h2, f⟩
  rcases f with _ | ⟨h1, f⟩
  cases f
  dsimp only at h1 h2 h3
  cases h1
  cases h3
  cases h2 with
  | @alternative a ta x ea ca =>
  rw [held_some ca, did_bind] at hr
  dsimp only at hr
  rw [delete_none, did_bind, delete_none, did_bind] at hr
  subst hr
  refine Inv.replace (new := (.term, some a)) hi (fun _ _ _ => rfl) ?_ ?_ le_rfl (fun _ _ _ => rfl) ?_
  · intro b hb hb'
    exfalso
    exact hb' (by simpa [pointers] using hb)
  · intro b hb
    have : b = a := by simpa [pointers] using hb
    subst this
    exact ⟨by rw [ca]; simp, hf b (by simp [pointers]), .inl (by simp [pointers])⟩
  · intro ss hs
    rcases hs with _ | ⟨g3, g⟩
    rcases g with _ | ⟨g2, g⟩
    rcases g with _ | ⟨g1, g⟩
    cases g
    dsimp only at g1 g2 g3
    cases g1
    cases g3
    cases g2 with
    | @alternative _ t1 x1 e1 c1 =>
    have := Means.term (e := e) (ret := w.ret) (cells := w.heap.cells) (a := a) (t := .group t1) (v := .fsm x1) (by rw [evalTerm, e1]; rfl) c1
    simpa [Term.spell] using this

/-- Reductions. -/
theorem reduce_fine {ts : List Tok} {w : World} (hi : Inv e w.items w.heap w.ret ts) (hl : w.Ok) (hc : OrderedCounts ts) {p : Prod} {r : Did World}
    (hr : reduce e p w = some r) : Fine e ts r := by
  unfold World.items at hi
  obtain ⟨stack, look, heap, ret⟩ := w
  unfold reduce at hr
  split at hr
  all_goals (rename_i hst; dsimp only at hst hi; try subst hst)
  · exact reduce_regexp (w := ⟨_, look, heap, ret⟩) hi hl (Option.some.inj hr)
  · cases hr; exact Inv.rename hi fun ts h => by cases h with | conjunction h1 h2 => exact .alternative (t := .one _) h1 h2
  · exact reduce_altOr (w := ⟨_, look, heap, ret⟩) hi (Option.some.inj hr)
  · cases hr; exact Inv.rename hi fun ts h => by cases h with | negation h1 h2 => exact .conjunction (t := .one _) h1 h2
  · exact reduce_conjAnd (w := ⟨_, look, heap, ret⟩) hi (Option.some.inj hr)
  · cases hr; exact Inv.rename hi fun ts h => by cases h with | concatenation h1 h2 => exact .negation (t := .one _) h1 h2
  · exact reduce_negNot (w := ⟨_, look, heap, ret⟩) hi (Option.some.inj hr)
  · cases hr; exact reduce_catNil (w := ⟨_, look, heap, ret⟩) hi
  · exact reduce_catSnoc (w := ⟨_, look, heap, ret⟩) hi (Option.some.inj hr)
  · cases hr; exact Inv.rename hi fun ts h => by cases h with | term h1 h2 => exact .iteration (t := .one _) h1 h2
  · exact reduce_iterRep (w := ⟨_, look, heap, ret⟩) hi hc (Option.some.inj hr)
  · cases hr; exact Inv.rename hi fun ts h => by cases h with | letters h2 => exact .term (t := .letters _ _) rfl h2
  · cases hr; exact Inv.rename hi fun ts h => by cases h with | dot h2 => exact .term (t := .dot) rfl h2
  · cases hr; exact Inv.rename hi fun ts h => by cases h with | bol h2 => exact .term (t := .bol) rfl h2
  · cases hr; exact Inv.rename hi fun ts h => by cases h with | eol h2 => exact .term (t := .eol) rfl h2
  · exact reduce_termGroup (w := ⟨_, look, heap, ret⟩) hi (Option.some.inj hr)
  · cases hr

/-! ### Many steps -/

theorem Inv.push {l : List Entry} {h h' : Heap} {x : Entry} {t : Tok} {ts : List Tok} (hi : Inv e l h ret ts)
    (same : ∀ a, a ∉ pointers [x] → h'.cells a = h.cells a) (born : ∀ a ∈ pointers [x], h'.cells a ≠ none ∧ a < h'.fresh ∧ h.fresh ≤ a) (grows : h.fresh ≤ h'.fresh)
    (mean : Means e h'.cells ret x.1 x.2 [t]) : Inv e (x :: l) h' ret (ts ++ [t]) := by
  obtain ⟨h1, h2, h3, ss, h4, h5⟩ := hi
  have e0 : pointers (x :: l) = pointers [x] ++ pointers l := by rw [show x :: l = [x] ++ l from rfl, pointers_append]
  have old : ∀ a ∈ pointers l, a ∉ pointers [x] := fun a ha hx => by have := h3 a ha; have := (born a hx).2.2; omega
  refine ⟨?_, ?_, ?_, [t] :: ss, .cons mean ?_, by simp [h5]⟩
  · rw [e0]
    refine List.nodup_append.2 ⟨?_, h1, ?_⟩
    · obtain ⟨s, p⟩ := x
      cases p <;> simp [pointers]
    · rintro a ha b hb rfl; exact old a hb ha
  · intro a
    rw [e0, List.mem_append]
    by_cases hx : a ∈ pointers [x]
    · simp [hx, (born a hx).1]
    · rw [same a hx, h2 a]; simp [hx]
  · intro a ha
    rw [e0, List.mem_append] at ha
    rcases ha with ha | ha
    · exact (born a ha).2.1
    · have := h3 a ha; omega
  · have : ∀ (m : List Entry) (sm : List (List Tok)), (∀ a ∈ pointers m, a ∉ pointers [x]) →
        List.Forall₂ (fun x s => Means e h.cells ret x.1 x.2 s) m sm → List.Forall₂ (fun x s => Means e h'.cells ret x.1 x.2 s) m sm := by
      intro m sm hm hf
      induction hf with
      | nil => exact .nil
      | @cons y s m sm hy _ ih =>
        refine .cons (hy.congr (fun a ha => same a (hm a (mem_pointers.2 ⟨y, by simp, ha⟩))) fun _ => rfl) (ih fun a ha => hm a ?_)
        obtain ⟨z, hz, hza⟩ := mem_pointers.1 ha
        exact mem_pointers.2 ⟨z, by simp [hz], hza⟩
    exact this l ss old h4

theorem Inv.read {l : List Entry} {h : Heap} {ts : List Tok} (hi : Inv e l h ret ts) (t : Tok) : Inv e ((yylex h t).1 :: l) (yylex h t).2 ret (ts ++ [t]) := by
  have key : ∀ (s : Sym) (v : Held), Means e (h.new v).cells ret s (some h.fresh) [t] → Inv e ((s, some h.fresh) :: l) (h.new v) ret (ts ++ [t]) := by
    intro s v hm
    refine hi.push ?_ ?_ (Nat.le_succ _) hm
    · intro a ha
      have : a ≠ h.fresh := by rintro rfl; simp [pointers] at ha
      simp [Heap.new, Function.update_of_ne this]
    · intro a ha
      have : a = h.fresh := by simpa [pointers] using ha
      subst this
      exact ⟨by simp [Heap.new], Nat.lt_succ_self _, le_rfl⟩
  have key' : ∀ s : Sym, Means e h.cells ret s none [t] → Inv e ((s, none) :: l) h ret (ts ++ [t]) := fun s hm =>
    hi.push (fun _ _ => rfl) (fun a ha => by simp [pointers] at ha) le_rfl hm
  cases t with
  | letters cs neg => exact key _ _ (.letters (by simp [Heap.new]))
  | count lo hi => exact key _ _ (.count (by simp [Heap.new]))
  | dot => exact key _ _ (.dot (by simp [Heap.new]))
  | bol => exact key _ _ (.bol (by simp [Heap.new]))
  | eol => exact key _ _ (.eol (by simp [Heap.new]))
  | opn => exact key' _ .opn
  | cls => exact key' _ .cls
  | bar => exact key' _ .bar
  | amp => exact key' _ .and
  | tilde => exact key' _ .not

theorem ThrowsIn.mono {ts us : List Tok} (h : ThrowsIn e ts) : ThrowsIn e (ts ++ us) := by
  obtain ⟨t1, t2, t3, t, rfl, h2, h3⟩ := h
  exact ⟨t1, t2, t3 ++ us, t, by simp, h2, h3⟩

/-- The tokens that are read. -/
def reads : List Event → List Tok
  | [] => []
  | .read t :: l => t :: reads l
  | _ :: l => reads l

/-- If the step ends, this is the token read before. -/
def Keeps (x : Option Entry) : Did World → Prop
  | .ok w => w.look = x
  | _ => True

theorem keeps_bind {α : Type} {x : Option Entry} {r : Did α} {f : α → Did World} (h : ∀ a, Keeps x (f a)) : Keeps x (r >>= f) := by
  cases r with
  | ok a => exact h a
  | throws h => trivial
  | bad => trivial

theorem reduce_keeps {w : World} {p : Prod} {r : Did World} (hr : reduce e p w = some r) : Keeps w.look r := by
  unfold reduce at hr
  split at hr
  all_goals first | cases hr; done | (obtain rfl := Option.some.inj hr)
  all_goals
    repeat' first
      | rfl
      | trivial
      | refine keeps_bind fun _ => ?_
      | split

theorem yylex_ok (h : Heap) (t : Tok) : (yylex h t).1.1 ≠ .regexp := by cases t <;> simp [yylex]

theorem steps_fine : ∀ (evs : List Event) {w : World} {ts : List Tok} {r : Did World}, Inv e w.items w.heap w.ret ts → w.Ok → OrderedCounts (ts ++ reads evs) →
    steps e w evs = some r → Fine e (ts ++ reads evs) r := by
  intro evs
  induction evs with
  | nil =>
    intro w ts r hi _ _ hr
    cases hr
    simpa [reads, Fine] using hi
  | cons a evs ih =>
    intro w ts r hi hl hc hr
    unfold steps at hr
    cases a with
    | read t =>
      rw [show ts ++ reads (.read t :: evs) = (ts ++ [t]) ++ reads evs by simp [reads]] at hc ⊢
      obtain ⟨stack, look, heap, ret⟩ := w
      cases look with
      | some x => simp [step] at hr
      | none =>
        simp only [step] at hr
        refine ih ?_ ?_ hc hr
        · exact Inv.read hi t
        · intro x hx
          have : x = (yylex heap t).1 := by simpa using hx
          rw [this]; exact yylex_ok heap t
    | shift =>
      rw [show ts ++ reads (.shift :: evs) = ts ++ reads evs by simp [reads]] at hc ⊢
      obtain ⟨stack, look, heap, ret⟩ := w
      cases look with
      | none => simp [step] at hr
      | some x =>
        simp only [step] at hr
        exact ih (w := ⟨x :: stack, none, heap, ret⟩) hi (fun x hx => by simp at hx) hc hr
    | reduce p =>
      rw [show ts ++ reads (.reduce p :: evs) = ts ++ reads evs by simp [reads]] at hc ⊢
      simp only [step] at hr
      cases hs : reduce e p w with
      | none => rw [hs] at hr; simp at hr
      | some r' =>
        have hf := reduce_fine hi hl hc.left hs
        have hk := reduce_keeps hs
        rw [hs] at hr
        cases r' with
        | ok w' =>
          refine ih hf ?_ hc hr
          intro x hx
          rw [show w'.look = w.look from hk] at hx
          exact hl x hx
        | throws h =>
          cases hr
          exact ⟨hf.1, hf.2.mono⟩
        | bad => exact absurd hf id

/-- The destructors free what is left. -/
theorem destroy_all : ∀ (l : List Entry) (h : Heap), (pointers l).Nodup → (∀ a ∈ pointers l, h.cells a ≠ none) →
    ∃ h', destroy h l = .ok h' ∧ ∀ a, h'.cells a = if a ∈ pointers l then none else h.cells a := by
  intro l
  induction l with
  | nil => intro h _ _; exact ⟨h, rfl, fun a => by simp [pointers]⟩
  | cons x l ih =>
    intro h hn hl
    obtain ⟨s, p⟩ := x
    cases p with
    | none =>
      have e0 : pointers ((s, none) :: l) = pointers l := by simp [pointers]
      rw [e0] at hn hl ⊢
      obtain ⟨h', h1, h2⟩ := ih h hn hl
      exact ⟨h', by rw [destroy, delete_none, did_bind]; exact h1, h2⟩
    | some a =>
      have e0 : pointers ((s, some a) :: l) = a :: pointers l := by simp [pointers]
      rw [e0] at hn hl ⊢
      obtain ⟨na, hn⟩ := List.nodup_cons.1 hn
      obtain ⟨v, hv⟩ := Option.ne_none_iff_exists'.1 (hl a (by simp))
      obtain ⟨h', h1, h2⟩ := ih { h with cells := Function.update h.cells a none } hn (fun b hb => by
        have : b ≠ a := by rintro rfl; exact na hb
        simpa [Function.update_of_ne this] using hl b (by simp [hb]))
      refine ⟨h', by rw [destroy, delete_some hv, did_bind]; exact h1, fun b => ?_⟩
      rw [h2 b]
      by_cases hb : b = a
      · simp [hb]
      · simp [hb]

theorem Inv.cleanup {w : World} {ts : List Tok} (hi : Inv e w.items w.heap w.ret ts) : ∃ h, w.cleanup = .ok h ∧ ∀ a, h.cells a = none := by
  obtain ⟨h, h1, h2⟩ := destroy_all w.items w.heap hi.nodup fun a ha => (hi.live a).2 ha
  refine ⟨h, h1, fun a => ?_⟩
  rw [h2 a]
  split_ifs with ha
  · rfl
  · by_contra hx; exact ha ((hi.live a).1 hx)

end Pire.Stack
