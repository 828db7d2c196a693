import Verif.Proofs.CaptureGadget
import Verif.Proofs.CapturePrefer

/-!
# The actions of the parser build chains (C60)
-/

namespace Pire
namespace Capture
open Spec Pire.Lex Pire.Enc Pire.Parse

/-! ### The marks among the items -/

/-- The items, with the marks around `w` of them after the first `b`. -/
def weave (is : List Item) : Option (Nat × Nat) → List Elem
  | none => is.map .item
  | some (b, w) => (is.take b).map .item ++ (.opn :: ((is.drop b).take w).map .item ++ (.cls :: (is.drop (b + w)).map .item))

theorem weave_left {x : List Item} (y : List Item) {o : Option (Nat × Nat)} (h : ∀ b w, o = some (b, w) → b + w ≤ x.length) :
    weave (x ++ y) o = weave x o ++ y.map .item := by
  cases o with
  | none => simp [weave]
  | some p =>
    obtain ⟨b, w⟩ := p
    have := h b w rfl
    unfold weave
    dsimp only
    rw [List.take_append_of_le_length (by omega), List.drop_append_of_le_length (by omega), List.take_append_of_le_length (by rw [List.length_drop]; omega),
      List.drop_append_of_le_length (by omega)]
    simp

theorem weave_right (x y : List Item) (b w : Nat) : weave (x ++ y) (some (x.length + b, w)) = x.map .item ++ weave y (some (b, w)) := by
  unfold weave
  dsimp only
  rw [List.take_append, List.drop_append, List.drop_append, List.take_of_length_le (by omega), List.drop_of_length_le (l := x) (i := x.length + b) (by omega),
    List.drop_of_length_le (l := x) (i := x.length + b + w) (by omega)]
  simp only [Nat.add_sub_cancel_left, List.nil_append, Nat.add_assoc]
  simp

theorem weave_all (x : List Item) : weave x (some (0, x.length)) = .opn :: x.map .item ++ [.cls] := by
  unfold weave
  simp

theorem weave_ne {x : List Item} (h : x ≠ []) (o : Option (Nat × Nat)) : weave x o ≠ [] := by
  cases o with
  | none => simpa [weave] using h
  | some p => simp [weave]

theorem itemsOf_append (x y : List Elem) : itemsOf (x ++ y) = itemsOf x ++ itemsOf y := by
  induction x with
  | nil => rfl
  | cons a x ih => cases a <;> simp [itemsOf, ih]

theorem itemsOf_map (x : List Item) : itemsOf (x.map .item) = x := by
  induction x with
  | nil => rfl
  | cons a x ih => simp [itemsOf, ih]

theorem itemsOf_weave (x : List Item) (o : Option (Nat × Nat)) : itemsOf (weave x o) = x := by
  cases o with
  | none => exact itemsOf_map x
  | some p =>
    obtain ⟨b, w⟩ := p
    unfold weave
    rw [itemsOf_append, List.cons_append, itemsOf, itemsOf_append, itemsOf, itemsOf_map, itemsOf_map, itemsOf_map, ← List.drop_drop, List.take_append_drop, List.take_append_drop]

theorem begAt_map (b : Nat) (x : List Item) : ∀ (es : List Elem) (ns : List Nat) (i : Nat), begAt b (x.map .item ++ es) ns i = begAt b es (ns.drop x.length) (i + (ns.take x.length).sum) := by
  induction x with
  | nil => intro es ns i; simp
  | cons a x ih =>
    intro es ns i
    rw [List.map_cons, List.cons_append, begAt, ih]
    cases ns with
    | nil => simp
    | cons n ns => simp [Nat.add_assoc]

theorem finAt_map (b : Nat) (x : List Item) : ∀ (es : List Elem) (ns : List Nat) (i : Nat), finAt b (x.map .item ++ es) ns i = finAt b es (ns.drop x.length) (i + (ns.take x.length).sum) := by
  induction x with
  | nil => intro es ns i; simp
  | cons a x ih =>
    intro es ns i
    rw [List.map_cons, List.cons_append, finAt, ih]
    cases ns with
    | nil => simp
    | cons n ns => simp [Nat.add_assoc]

theorem begAt_items (b : Nat) (x : List Item) (ns : List Nat) (i : Nat) : begAt b (x.map .item) ns i = b := by
  have := begAt_map b x [] ns i
  rwa [List.append_nil] at this
theorem finAt_items (b : Nat) (x : List Item) (ns : List Nat) (i : Nat) : finAt b (x.map .item) ns i = b := by
  have := finAt_map b x [] ns i
  rwa [List.append_nil] at this

theorem begAt_weave {x : List Item} {b w : Nat} (h : b + w ≤ x.length) (ns : List Nat) (i : Nat) : begAt npos (weave x (some (b, w))) ns i = i + (ns.take b).sum := by
  unfold weave
  rw [begAt_map, List.cons_append, begAt, if_pos rfl, begAt_map, begAt, begAt_items, List.length_take, Nat.min_eq_left (by omega)]

theorem finAt_weave {x : List Item} {b w : Nat} (h : b + w ≤ x.length) (ns : List Nat) (i : Nat) : finAt npos (weave x (some (b, w))) ns i = i + (ns.take (b + w)).sum := by
  unfold weave
  rw [finAt_map, List.cons_append, finAt, finAt_map, finAt, if_pos rfl, finAt_items, List.length_take, List.length_take, List.length_drop,
    Nat.min_eq_left (by omega), Nat.min_eq_left (by omega), List.take_add, List.sum_append, Nat.add_assoc]

/-! ### The numbers of items -/

mutual
theorem Alt.items_length (a : Alt) (l : List Bool) {x : List Item} (h : a.items l = some x) : x.length = a.width := by
  match a with
  | .one c => rw [Alt.items] at h; rw [Alt.width]; exact Conj.items_length c l h
  | .or a c => rw [Alt.items] at h; cases h
theorem Conj.items_length (a : Conj) (l : List Bool) {x : List Item} (h : a.items l = some x) : x.length = a.width := by
  match a with
  | .one c => rw [Conj.items] at h; rw [Conj.width]; exact Neg.items_length c l h
  | .and a c => rw [Conj.items] at h; cases h
theorem Neg.items_length (a : Neg) (l : List Bool) {x : List Item} (h : a.items l = some x) : x.length = a.width := by
  match a with
  | .one c => rw [Neg.items] at h; rw [Neg.width]; exact Cat.items_length c l h
  | .not c => rw [Neg.items] at h; cases h
theorem Cat.items_length (a : Cat) (l : List Bool) {x : List Item} (h : a.items l = some x) : x.length = a.width := by
  match a with
  | .nil => rw [Cat.items] at h; cases h; rfl
  | .snoc a c =>
    rw [Cat.items] at h
    obtain ⟨y, hy, h⟩ := Option.bind_eq_some_iff.1 h
    obtain ⟨z, hz, h⟩ := Option.bind_eq_some_iff.1 h
    cases h
    rw [Cat.width, List.length_append, Cat.items_length a l hy, Iter.items_length c _ hz]
theorem Iter.items_length (a : Iter) (l : List Bool) {x : List Item} (h : a.items l = some x) : x.length = a.width := by
  match a with
  | .one t => rw [Iter.items] at h; rw [Iter.width]; exact Term.items_length t l h
  | .rep t lo hi =>
    rw [Iter.items] at h
    obtain ⟨bs, hb, h⟩ := Option.bind_eq_some_iff.1 h
    rw [Iter.width]
    have hw : t.width = 1 := by
      cases t with
      | letters => rfl
      | dot => rfl
      | bol => cases hb
      | eol => cases hb
      | group => cases hb
    split at h
    · cases h; rw [hw]; rfl
    · cases h
theorem Term.items_length (a : Term) (l : List Bool) {x : List Item} (h : a.items l = some x) : x.length = a.width := by
  match a with
  | .letters cs neg =>
    rw [Term.items] at h
    obtain ⟨bs, hb, h⟩ := Option.map_eq_some_iff.1 h
    rw [← h]; rfl
  | .dot =>
    rw [Term.items] at h
    obtain ⟨bs, hb, h⟩ := Option.map_eq_some_iff.1 h
    rw [← h]; rfl
  | .bol => rw [Term.items] at h; cases h
  | .eol => rw [Term.items] at h; cases h
  | .group a =>
    rw [Term.items] at h
    obtain ⟨y, hy, h⟩ := Option.bind_eq_some_iff.1 h
    split at h
    · cases h
    · cases h; rw [Term.width]; exact Alt.items_length a l hy
end

mutual
theorem Alt.before_width (a : Alt) (k : Nat) {x : Alt} (h : a.nth k = some x) : a.before k + x.width ≤ a.width := by
  match a with
  | .one c => rw [Alt.nth] at h; rw [Alt.before, Alt.width]; exact Conj.before_width c k h
  | .or a c =>
    rw [Alt.nth] at h
    rw [Alt.before, Alt.width]
    split at h
    · have := Alt.before_width a k h
      rw [if_pos (by assumption)]; omega
    · have := Conj.before_width c _ h
      rw [if_neg (by assumption)]; omega
theorem Conj.before_width (a : Conj) (k : Nat) {x : Alt} (h : a.nth k = some x) : a.before k + x.width ≤ a.width := by
  match a with
  | .one c => rw [Conj.nth] at h; rw [Conj.before, Conj.width]; exact Neg.before_width c k h
  | .and a c =>
    rw [Conj.nth] at h
    rw [Conj.before, Conj.width]
    split at h
    · have := Conj.before_width a k h
      rw [if_pos (by assumption)]; omega
    · have := Neg.before_width c _ h
      rw [if_neg (by assumption)]; omega
theorem Neg.before_width (a : Neg) (k : Nat) {x : Alt} (h : a.nth k = some x) : a.before k + x.width ≤ a.width := by
  match a with
  | .one c => rw [Neg.nth] at h; rw [Neg.before, Neg.width]; exact Cat.before_width c k h
  | .not c => rw [Neg.nth] at h; rw [Neg.before, Neg.width]; exact Cat.before_width c k h
theorem Cat.before_width (a : Cat) (k : Nat) {x : Alt} (h : a.nth k = some x) : a.before k + x.width ≤ a.width := by
  match a with
  | .nil => rw [Cat.nth] at h; cases h
  | .snoc a c =>
    rw [Cat.nth] at h
    rw [Cat.before, Cat.width]
    split at h
    · have := Cat.before_width a k h
      rw [if_pos (by assumption)]; omega
    · have := Iter.before_width c _ h
      rw [if_neg (by assumption)]; omega
theorem Iter.before_width (a : Iter) (k : Nat) {x : Alt} (h : a.nth k = some x) : a.before k + x.width ≤ a.width := by
  match a with
  | .one c => rw [Iter.nth] at h; rw [Iter.before, Iter.width]; exact Term.before_width c k h
  | .rep c lo hi => rw [Iter.nth] at h; rw [Iter.before, Iter.width]; exact Term.before_width c k h
theorem Term.before_width (a : Term) (k : Nat) {x : Alt} (h : a.nth k = some x) : a.before k + x.width ≤ a.width := by
  match a with
  | .letters cs neg => rw [Term.nth] at h; cases h
  | .dot => rw [Term.nth] at h; cases h
  | .bol => rw [Term.nth] at h; cases h
  | .eol => rw [Term.nth] at h; cases h
  | .group a =>
    rw [Term.nth] at h
    rw [Term.before, Term.width]
    split at h
    · rw [if_pos (by assumption)]; cases h; omega
    · rw [if_neg (by assumption)]; exact Alt.before_width a _ h
end

/-! ### The actions -/

/-- The value of a term or of an iteration is a chain. -/
def ValChain : Val → List Elem → Prop
  | .range cs neg, es => neg = false ∧ (cs.filter (· < 128)).Nonempty ∧ es = [.item ⟨cs.filter (· < 128), 1, some 1, false⟩]
  | .dot, es => es = [.item ⟨Finset.range 256, 1, some 1, false⟩]
  | .fsm f, es => (∃ z, Chain f z 0 es) ∧ es ≠ []
  | .bol, _ => False
  | .eol, _ => False

theorem latin_strings (cs : Finset Nat) : ((elems cs).map Encoding.latin1.toLocal).filter (· ≠ []) = ((elems cs).filter (· < 128)).map fun c => [c] := by
  generalize elems cs = l
  induction l with
  | nil => rfl
  | cons c l ih =>
    rw [List.map_cons, List.filter_cons, List.filter_cons, ih]
    change (if decide (latin1ToLocal c ≠ []) = true then latin1ToLocal c :: _ else _) = _
    unfold latin1ToLocal
    by_cases h : c < 128
    · simp [h]
    · simp [h]

theorem appendRange_grown {f : Fsm} (hw : f.WF) (hr : f.Raw) {cs : Finset Nat} (hn : (cs.filter (· < 128)).Nonempty) :
    ∃ g, appendRange .latin1 f cs = .ok g ∧ Grown f g (cs.filter (· < 128)) := by
  have hm : ∀ c, c ∈ (elems cs).filter (· < 128) ↔ c ∈ cs.filter (· < 128) := fun c => by
    rw [List.mem_filter, Finset.mem_filter, mem_elems]; simp
  obtain ⟨g, h1, h2⟩ := grown_strings hw hr ((elems cs).filter (· < 128)) fun c hc => by
    have := (List.mem_filter.1 hc).2; simp at this; omega
  refine ⟨g, ?_, ?_⟩
  · unfold appendRange
    dsimp only
    rw [latin_strings, if_neg, h1]
    · rfl
    · obtain ⟨c, hc⟩ := hn
      intro he
      have h3 := List.map_eq_nil_iff.1 he
      have h4 := (hm c).2 hc
      rw [h3] at h4
      cases h4
  · have : ((elems cs).filter (· < 128)).toFinset = cs.filter (· < 128) := by
      ext c; rw [List.mem_toFinset]; exact hm c
    rwa [this] at h2

theorem appendDot_grown {f : Fsm} (hw : f.WF) (hr : f.Raw) : Grown f (Encoding.latin1.appendDot f) (Finset.range 256) := by
  have h := grown_letters hw hr (List.range 256) fun c hc => List.mem_range.1 hc
  have : (List.range 256).toFinset = Finset.range 256 := by
    ext c
    rw [List.mem_toFinset, List.mem_range, Finset.mem_range]
  rw [this] at h
  exact h

theorem appendIteration_chain {f r : Fsm} {v : Val} {z m : Nat} {es es' : List Elem} (h : Chain f z m es) (hv : ValChain v es') (hr : appendIteration .latin1 f v = .ok r) :
    (∃ z', Chain r z' m (es ++ es')) ∧ r.initial = f.initial := by
  cases v with
  | range cs neg =>
    obtain ⟨rfl, hn, rfl⟩ := hv
    obtain ⟨g, h1, h2⟩ := appendRange_grown h.wf h.raw hn
    change appendRange .latin1 f cs = .ok r at hr
    rw [h1] at hr
    cases hr
    exact ⟨⟨_, h.grow h2 fun c hc => by have := (Finset.mem_filter.1 hc).2; omega⟩, h2.init⟩
  | dot =>
    obtain rfl : es' = _ := hv
    change Res.ok (Encoding.latin1.appendDot f) = .ok r at hr
    have h2 := appendDot_grown h.wf h.raw
    rw [Res.ok.inj hr] at h2
    exact ⟨⟨_, h.grow h2 fun c hc => Finset.mem_range.1 hc⟩, h2.init⟩
  | fsm g =>
    obtain ⟨⟨z', hg⟩, hne⟩ := hv
    change Res.ok (f.concat g) = .ok r at hr
    cases hr
    obtain ⟨h1, h2⟩ := h.concat hg hne
    exact ⟨⟨_, h1⟩, h2⟩
  | bol => exact hv.elim
  | eol => exact hv.elim

theorem convertToFsm_byte {f : Fsm} {t : Term} {s r : Drive} {v : Val} {bs : Finset Nat} (ht : t.bytes = some bs) (hv : evalTerm .latin1 t s = .ok (v, r)) (hf : convertToFsm .latin1 v = .ok f) :
    Byte f bs ∧ (∀ c ∈ bs, c < 256) ∧ r = s ∧ t.groups = 0 ∧ t.counts = 0 ∧ ∀ k, t.nth k = none := by
  cases t with
  | letters cs neg =>
    cases neg with
    | true => cases ht
    | false =>
      rw [Spec.Term.bytes] at ht
      split at ht
      · cases ht
        rw [evalTerm] at hv
        cases hv
        obtain ⟨g, h1, h2⟩ := appendRange_grown chain_init.wf chain_init.raw (cs := cs) (by assumption)
        have hf : (do let a ← appendRange .latin1 Fsm.init cs; Res.ok a) = .ok f := hf
        rw [h1] at hf
        cases hf
        exact ⟨h2.byte, fun c hc => by have := (Finset.mem_filter.1 hc).2; omega, rfl, rfl, rfl, fun k => rfl⟩
      · cases ht
  | dot =>
    cases ht
    rw [evalTerm] at hv
    cases hv
    have h2 := (appendDot_grown chain_init.wf chain_init.raw)
    have hf : Res.ok (Encoding.latin1.appendDot Fsm.init) = .ok f := hf
    rw [Res.ok.inj hf] at h2
    exact ⟨h2.byte, fun c hc => Finset.mem_range.1 hc, rfl, rfl, rfl, fun k => rfl⟩
  | bol => cases ht
  | eol => cases ht
  | group => cases ht


theorem res_bind {α β : Type} {x : Res α} {k : α → Res β} {r : β} (h : (x >>= k) = .ok r) : ∃ a, x = .ok a ∧ k a = .ok r := by
  cases x with
  | ok a => exact ⟨a, rfl, h⟩
  | throws => cases h
  | bad => cases h

/-- What a tree builds. -/
def Built (f : Fsm) (r s : Drive) (nth : Nat → Option Alt) (before : Nat → Nat) (groups counts : Nat) (x : List Item) : Prop :=
  (∃ z, Chain f z (f.initial + 1) (weave x ((nth s.1.target).map fun a => (before s.1.target, a.width)))) ∧ r = (s.1.after groups, s.2.drop counts)

theorem repeatAction_chain {o g : Fsm} {bs : Finset Nat} (h : Byte o bs) (hb : ∀ c ∈ bs, c < 256) {lo : Nat} {hi : Option Nat} (hs : lo = 0 ∧ hi = some 1 ∨ lo ≤ 1 ∧ hi = none) (lz : Bool)
    (hg : repeatAction o lo hi = .ok g) : ∃ z, Chain (setRepetitionMark g (!lz)) z 0 [.item ⟨bs, lo, hi, lz⟩] := by
  unfold repeatAction at hg
  by_cases h1 : lo = 0 ∧ hi = some 1
  · rw [if_pos h1] at hg
    obtain ⟨rfl, rfl⟩ := h1
    have hg := Res.ok.inj hg
    subst hg
    exact ⟨4, chain_opt h hb lz⟩
  · rw [if_neg h1] at hg
    by_cases h2 : lo = 0 ∧ hi = none
    · rw [if_pos h2] at hg
      obtain ⟨rfl, rfl⟩ := h2
      have hg := Res.ok.inj hg
      subst hg
      exact ⟨4, chain_star h hb lz⟩
    · rw [if_neg h2] at hg
      by_cases h3 : lo = 1 ∧ hi = none
      · rw [if_pos h3] at hg
        obtain ⟨rfl, rfl⟩ := h3
        have hg := Res.ok.inj hg
        subst hg
        exact ⟨6, chain_plus h hb lz⟩
      · exfalso
        rcases hs with hs | ⟨h4, h5⟩
        · exact h1 hs
        · interval_cases lo
          · exact h2 ⟨rfl, h5⟩
          · exact h3 ⟨rfl, h5⟩

theorem nth_none_of {n : Option Alt} {k g : Nat} (h : n.isSome = true ↔ 1 ≤ k ∧ k ≤ g) (hk : k = 0 ∨ g < k) : n = none := by
  cases n with
  | none => rfl
  | some a => have := h.1 rfl; omega

mutual
theorem evalAlt_chain (a : Alt) (s : Drive) (hs : s.1.rep = none) {x : List Item} (hx : a.items s.2 = some x) {f : Fsm} {r : Drive} (h : evalAlt .latin1 a s = .ok (f, r)) :
    Built f r s a.nth a.before a.groups a.counts x := by
  match a with
  | .one c =>
    rw [Alt.items] at hx
    rw [evalAlt] at h
    exact evalConj_chain c s hs hx h
  | .or a c => rw [Alt.items] at hx; cases hx
theorem evalConj_chain (a : Conj) (s : Drive) (hs : s.1.rep = none) {x : List Item} (hx : a.items s.2 = some x) {f : Fsm} {r : Drive} (h : evalConj .latin1 a s = .ok (f, r)) :
    Built f r s a.nth a.before a.groups a.counts x := by
  match a with
  | .one c =>
    rw [Conj.items] at hx
    rw [evalConj] at h
    exact evalNeg_chain c s hs hx h
  | .and a c => rw [Conj.items] at hx; cases hx
theorem evalNeg_chain (a : Neg) (s : Drive) (hs : s.1.rep = none) {x : List Item} (hx : a.items s.2 = some x) {f : Fsm} {r : Drive} (h : evalNeg .latin1 a s = .ok (f, r)) :
    Built f r s a.nth a.before a.groups a.counts x := by
  match a with
  | .one c =>
    rw [Neg.items] at hx
    rw [evalNeg] at h
    exact evalCat_chain c s hs hx h
  | .not a => rw [Neg.items] at hx; cases hx
theorem evalCat_chain (a : Cat) (s : Drive) (hs : s.1.rep = none) {x : List Item} (hx : a.items s.2 = some x) {f : Fsm} {r : Drive} (h : evalCat .latin1 a s = .ok (f, r)) :
    Built f r s a.nth a.before a.groups a.counts x := by
  match a with
  | .nil =>
    rw [Cat.items] at hx
    rw [evalCat] at h
    cases hx
    cases h
    exact ⟨⟨0, chain_init⟩, by rw [show Cat.groups .nil = 0 from rfl, show Cat.counts .nil = 0 from rfl, Fields.after_zero, List.drop_zero]⟩
  | .snoc c i =>
    rw [Cat.items] at hx
    obtain ⟨y, hy, hx⟩ := Option.bind_eq_some_iff.1 hx
    obtain ⟨w, hw, hx⟩ := Option.bind_eq_some_iff.1 hx
    cases hx
    rw [evalCat] at h
    obtain ⟨⟨g, s1⟩, h1, h⟩ := res_bind h
    obtain ⟨⟨v, s2⟩, h2, h⟩ := res_bind h
    obtain ⟨f', h3, h⟩ := res_bind h
    cases h
    obtain ⟨⟨z, c1⟩, c2⟩ := evalCat_chain c s hs hy h1
    subst c2
    obtain ⟨i1, i2⟩ := evalIter_chain i (s.1.after c.groups, s.2.drop c.counts) (Fields.after_rep hs _) hw h2
    obtain ⟨⟨z', a1⟩, a2⟩ := appendIteration_chain c1 i1 h3
    have n1 := Cat.nth_isSome c s.1.target
    have n2 := Iter.nth_isSome i (s.1.target - c.groups)
    have ly := Cat.items_length c s.2 hy
    dsimp only at a1 i2
    rw [Fields.target_after] at a1
    refine ⟨⟨z', ?_⟩, ?_⟩
    · rw [a2]
      have e : weave (y ++ w) (((Cat.snoc c i).nth s.1.target).map fun a => ((Cat.snoc c i).before s.1.target, a.width)) =
          weave y ((c.nth s.1.target).map fun a => (c.before s.1.target, a.width)) ++ weave w ((i.nth (s.1.target - c.groups)).map fun a => (i.before (s.1.target - c.groups), a.width)) := by
        rw [Cat.nth, Cat.before]
        by_cases hk : s.1.target ≤ c.groups
        · rw [if_pos hk, if_pos hk, nth_none_of n2 (.inl (by omega))]
          refine weave_left _ fun b v hb => ?_
          obtain ⟨a, ha, hb⟩ := Option.map_eq_some_iff.1 hb
          have := Cat.before_width c _ ha
          cases hb
          omega
        · rw [if_neg hk, if_neg hk, nth_none_of n1 (.inr (by omega))]
          cases hn : i.nth (s.1.target - c.groups) with
          | none => simp [weave]
          | some a =>
            rw [Option.map_some, Option.map_some, ← ly]
            exact weave_right ..
      rw [e]
      exact a1
    · rw [i2, Fields.after_after, List.drop_drop]
      rfl
theorem evalIter_chain (a : Iter) (s : Drive) (hs : s.1.rep = none) {x : List Item} (hx : a.items s.2 = some x) {v : Val} {r : Drive} (h : evalIter .latin1 a s = .ok (v, r)) :
    ValChain v (weave x ((a.nth s.1.target).map fun y => (a.before s.1.target, y.width))) ∧ r = (s.1.after a.groups, s.2.drop a.counts) := by
  match a with
  | .one c =>
    rw [Iter.items] at hx
    rw [evalIter] at h
    exact evalTerm_chain c s hs hx h
  | .rep t lo hi =>
    rw [Iter.items] at hx
    obtain ⟨bs, hb, hx⟩ := Option.bind_eq_some_iff.1 hx
    rw [evalIter] at h
    obtain ⟨⟨v', s1⟩, h1, h'⟩ := res_bind h
    obtain ⟨o, h2, h''⟩ := res_bind h'
    obtain ⟨g, h3, h4⟩ := res_bind h''
    clear h h' h''
    obtain ⟨b1, b2, b3, b4, b5, b6⟩ := convertToFsm_byte hb h1 h2
    subst b3
    split at hx
    · have hx := (Option.some.inj hx).symm
      subst hx
      obtain ⟨s, l⟩ := s1
      cases l with
      | nil => cases h4
      | cons lz l =>
        dsimp only at h4
        rw [Fields.repeated hs] at h4
        cases h4
        obtain ⟨z, hz⟩ := repeatAction_chain b1 b2 (by assumption) lz h3
        refine ⟨?_, ?_⟩
        · rw [Iter.nth, b6]
          exact ⟨⟨z, hz⟩, by simp [weave]⟩
        · rw [Iter.groups, Iter.counts, b4, b5, Fields.after_zero]
          rfl
    · cases hx
theorem evalTerm_chain (a : Term) (s : Drive) (hs : s.1.rep = none) {x : List Item} (hx : a.items s.2 = some x) {v : Val} {r : Drive} (h : evalTerm .latin1 a s = .ok (v, r)) :
    ValChain v (weave x ((a.nth s.1.target).map fun y => (a.before s.1.target, y.width))) ∧ r = (s.1.after a.groups, s.2.drop a.counts) := by
  match a with
  | .letters cs neg =>
    rw [Term.items] at hx
    obtain ⟨bs, hb, hx⟩ := Option.map_eq_some_iff.1 hx
    rw [evalTerm] at h
    cases h
    cases neg with
    | true => cases hb
    | false =>
      rw [Spec.Term.bytes] at hb
      split at hb
      · cases hb
        subst hx
        refine ⟨⟨rfl, by assumption, rfl⟩, ?_⟩
        rw [show (Term.letters cs false).groups = 0 from rfl, show (Term.letters cs false).counts = 0 from rfl, Fields.after_zero, List.drop_zero]
      · cases hb
  | .dot =>
    rw [Term.items] at hx
    obtain ⟨bs, hb, hx⟩ := Option.map_eq_some_iff.1 hx
    rw [evalTerm] at h
    cases h
    cases hb
    subst hx
    refine ⟨rfl, ?_⟩
    rw [show Term.dot.groups = 0 from rfl, show Term.dot.counts = 0 from rfl, Fields.after_zero, List.drop_zero]
  | .bol => rw [Term.items] at hx; cases hx
  | .eol => rw [Term.items] at hx; cases hx
  | .group a =>
    rw [Term.items] at hx
    obtain ⟨y, hy, hx⟩ := Option.bind_eq_some_iff.1 hx
    have hne : y ≠ [] ∧ y = x := by
      cases y with
      | nil => cases hx
      | cons => exact ⟨nofun, Option.some.inj hx⟩
    obtain ⟨hne, rfl⟩ := hne
    rw [evalTerm] at h
    obtain ⟨⟨f, s1, l⟩, h1, h⟩ := res_bind h
    obtain ⟨⟨z, c1⟩, c2⟩ := evalAlt_chain a (s.1.opened, s.2) (by rw [Fields.opened_rep]; exact hs) hy h1
    dsimp only at c1 c2 h
    obtain ⟨rfl, rfl⟩ := Prod.mk.inj c2
    rw [Fields.closed hs] at h
    cases h
    have ly := Alt.items_length a s.2 hy
    have n1 := Alt.nth_isSome a (s.1.target - 1)
    rw [Fields.opened_target] at c1
    refine ⟨?_, rfl⟩
    rw [Term.nth, Term.before]
    by_cases hk : s.1.target = 1
    · rw [if_pos hk, if_pos hk, if_pos hk, Option.map_some, ← ly, weave_all]
      rw [nth_none_of n1 (.inl (by omega))] at c1
      exact ⟨⟨_, c1.capture le_rfl⟩, nofun⟩
    · rw [if_neg hk, if_neg hk, if_neg hk]
      exact ⟨⟨z, c1.mono (Nat.zero_le _)⟩, weave_ne hne _⟩
end

end Capture
end Pire
