import Verif.Proofs.GreedyScan
import Verif.Model.Greedy

/-!
# Greedy counters: the states of `HalfFinalDetermineTask` describe the scan
-/

namespace Pire
namespace Greedy
open Spec HalfFinal.Greedy
open Classical

variable {L : Language Nat}

/-! ### Counting up to a place -/

theorem cutAt_split {p1 p2 : List (List Nat)} {x : List Nat} (h : ∀ y ∈ p1, y ∉ L) : ∃ r, cutAt L (p1 ++ x :: p2) = p1 ++ x :: r := by
  induction p1 with
  | nil =>
    rw [List.nil_append, cutAt]
    split
    · exact ⟨_, rfl⟩
    · exact ⟨_, rfl⟩
  | cons a p1 ih =>
    obtain ⟨r, hr⟩ := ih fun y hy => h y (List.mem_cons_of_mem _ hy)
    rw [List.cons_append, cutAt, if_neg (h a List.mem_cons_self), hr]
    exact ⟨r, rfl⟩

theorem cutAt_hit {p1 p2 : List (List Nat)} {x : List Nat} (h : ∀ y ∈ p1, y ∉ L) (hx : x ∈ L) : cutAt L (p1 ++ x :: p2) = p1 ++ [x, []] := by
  induction p1 with
  | nil => rw [List.nil_append, cutAt, if_pos hx]; rfl
  | cons a p1 ih =>
    rw [List.cons_append, cutAt, if_neg (h a List.mem_cons_self), ih fun y hy => h y (List.mem_cons_of_mem _ hy)]
    rfl

theorem cutAt_none {l : List (List Nat)} (h : ∀ y ∈ l, y ∉ L) : cutAt L l = l ++ [[]] := by
  induction l with
  | nil => rfl
  | cons a l ih => rw [cutAt, if_neg (h a List.mem_cons_self), ih fun y hy => h y (List.mem_cons_of_mem _ hy)]; rfl

theorem upTo_split {w x : List Nat} {p1 p2 : List (List Nat)} (h : starts L w = p1 ++ x :: p2) :
    upTo L w x = p1.countP (fun y => decide (Hit L y)) + if Hit L x then 1 else 0 := by
  have hp := starts_pairwise (L := L) w
  rw [h, List.pairwise_append, List.pairwise_cons] at hp
  obtain ⟨-, ⟨h2, -⟩, h3⟩ := hp
  unfold upTo
  rw [h, List.countP_append, List.countP_cons]
  have a1 : p1.countP (fun y => decide (Hit L y ∧ x.length ≤ y.length)) = p1.countP (fun y => decide (Hit L y)) :=
    List.countP_congr fun y hy => by
      have := h3 y hy x List.mem_cons_self
      simp only [decide_eq_true_eq]
      exact ⟨fun h => h.1, fun h => ⟨h, by omega⟩⟩
  have a2 : p2.countP (fun y => decide (Hit L y ∧ x.length ≤ y.length)) = 0 := by
    rw [List.countP_eq_zero]
    intro y hy
    have := h2 y hy
    simp only [decide_eq_true_eq]
    rintro ⟨_, h⟩; omega
  rw [a1, a2]
  simp

theorem countP_snoc {l : List (List Nat)} {c : Nat} (h : ∀ y ∈ l, y ++ [c] ∉ L) :
    (l.map (· ++ [c])).countP (fun y => decide (Hit L y)) = l.countP (fun y => decide (Hit L y)) := by
  rw [List.countP_map]
  refine List.countP_congr fun y hy => ?_
  simp only [Function.comp_apply, decide_eq_true_eq]
  rw [hit_snoc]
  exact ⟨fun h' => h'.resolve_right (h y hy), Or.inl⟩

theorem upTo_snoc {w x : List Nat} {c : Nat} {p1 p2 : List (List Nat)} (h : starts L w = p1 ++ x :: p2) (hc : ∀ y ∈ p1, y ++ [c] ∉ L) :
    upTo L (w ++ [c]) (x ++ [c]) = upTo L w x + if x ++ [c] ∈ L ∧ ¬ Hit L x then 1 else 0 := by
  obtain ⟨r, hr⟩ := cutAt_split (L := L) (p1 := p1.map (· ++ [c])) (x := x ++ [c]) (p2 := p2.map (· ++ [c])) (by
    intro y hy; obtain ⟨z, hz, rfl⟩ := List.mem_map.1 hy; exact hc z hz)
  have hs : starts L (w ++ [c]) = p1.map (· ++ [c]) ++ (x ++ [c]) :: r := by
    rw [starts_snoc, h, List.map_append, List.map_cons, hr]
  rw [upTo_split hs, upTo_split h, countP_snoc hc]
  by_cases h1 : Hit L x
  · have : Hit L (x ++ [c]) := hit_snoc.2 (Or.inl h1)
    simp [h1, this]
  · by_cases h2 : x ++ [c] ∈ L
    · have : Hit L (x ++ [c]) := hit_snoc.2 (Or.inr h2)
      simp [h1, h2, this]
    · have : ¬ Hit L (x ++ [c]) := fun h => (hit_snoc.1 h).elim h1 h2
      simp [h1, h2, this]

theorem tokens_snoc_none {w : List Nat} {c : Nat} (h : ∀ y ∈ starts L w, y ++ [c] ∉ L) :
    starts L (w ++ [c]) = (starts L w).map (· ++ [c]) ++ [[]] ∧ tokens L (w ++ [c]) = tokens L w := by
  have e : starts L (w ++ [c]) = (starts L w).map (· ++ [c]) ++ [[]] := by
    rw [starts_snoc, cutAt_none]
    intro y hy; obtain ⟨z, hz, rfl⟩ := List.mem_map.1 hy; exact h z hz
  refine ⟨e, ?_⟩
  unfold tokens
  rw [e, List.countP_append, countP_snoc h]
  simp [hit_nil]

theorem tokens_snoc_hit {w x : List Nat} {c : Nat} {p1 p2 : List (List Nat)} (h : starts L w = p1 ++ x :: p2) (hc : ∀ y ∈ p1, y ++ [c] ∉ L)
    (hx : x ++ [c] ∈ L) : starts L (w ++ [c]) = p1.map (· ++ [c]) ++ [x ++ [c], []] ∧ tokens L (w ++ [c]) = upTo L (w ++ [c]) (x ++ [c]) := by
  have e : starts L (w ++ [c]) = p1.map (· ++ [c]) ++ [x ++ [c], []] := by
    rw [starts_snoc, h, List.map_append, List.map_cons, cutAt_hit _ hx]
    intro y hy; obtain ⟨z, hz, rfl⟩ := List.mem_map.1 hy; exact hc z hz
  refine ⟨e, ?_⟩
  rw [upTo_split e]
  unfold tokens
  rw [e, List.countP_append]
  have : Hit L (x ++ [c]) := hit_snoc.2 (Or.inr hx)
  simp [hit_nil, this]

/-- The first place, if any, whose match the next character completes. -/
theorem first_hit (l : List (List Nat)) (c : Nat) :
    (∀ y ∈ l, y ++ [c] ∉ L) ∨ ∃ p1 x p2, l = p1 ++ x :: p2 ∧ (∀ y ∈ p1, y ++ [c] ∉ L) ∧ x ++ [c] ∈ L := by
  induction l with
  | nil => left; simp
  | cons a l ih =>
    by_cases ha : a ++ [c] ∈ L
    · right; exact ⟨[], a, l, rfl, by simp, ha⟩
    · rcases ih with h | ⟨p1, x, p2, rfl, h1, h2⟩
      · left
        intro y hy
        rcases List.mem_cons.1 hy with rfl | hy
        · exact ha
        · exact h y hy
      · right
        refine ⟨a :: p1, x, p2, rfl, fun y hy => ?_, h2⟩
        rcases List.mem_cons.1 hy with rfl | hy
        · exact ha
        · exact h1 y hy

/-! ### The automaton -/

/-- What the counter needs to know about the automaton: `st x` is the state in which a match that has read `x` is, unless it failed. -/
structure Sim (f : Fsm) (L : Language Nat) (st : List Nat → Option Nat) : Prop where
  nil : st [] = some f.initial
  dst : ∀ x q c, IsLetter c → c ≠ EndMark → st x = some q → elems (f.destinations q c) = (st (x ++ [c])).toList
  fin : ∀ x q, st x = some q → (f.isFinal q = true ↔ x ∈ L)
  gone : ∀ x, st x = none → x ∉ L
  dead : ∀ x c, st x = none → st (x ++ [c]) = none
  viable : ∀ x q, st x = some q → Viable L x
  same : ∀ x y q v, st x = some q → st y = some q → (x ++ v ∈ L ↔ y ++ v ∈ L)
  step : ∀ x y q c, st x = some q → st y = some q → st (x ++ [c]) = st (y ++ [c])
  atEnd : ∀ x q, st x = some q → ∀ p ∈ elems (f.destinations q EndMark), f.isFinal p = false ∧ p ≠ f.initial

variable {f : Fsm} {st : List Nat → Option Nat}

/-- The entry of the list `States` for the match that begins at `z`. -/
noncomputable def hold (L : Language Nat) (st : List Nat → Option Nat) (w : List Nat) (A : Nat) (z : List Nat) : Holder :=
  ⟨(st z).getD 0, upTo L w z - A, decide (Hit L z)⟩

/-- The state after `w`, `A` matches having been reported. -/
structure Inv (L : Language Nat) (st : List Nat → Option Nat) (w : List Nat) (A : Nat) (S : DSt) (xs : List (List Nat)) : Prop where
  sub : xs.Sublist (starts L w)
  alive : ∀ x ∈ xs, st x ≠ none
  states : S.states = xs.map (hold L st w A)
  cover : ∀ y ∈ starts L w, st y ≠ none → ∃ x ∈ xs, st x = st y ∧ y.length ≤ x.length
  le : ∀ x ∈ xs, A ≤ upTo L w x
  eq : ∃ x ∈ xs, A = upTo L w x
  last : S.last + A = tokens L w
  back : ∃ x, xs.getLast? = some x ∧ upTo L w x = tokens L w

/-! ### `AddState` -/

theorem backFinal_map (hs : Sim f L st) {zs : List (List Nat)} (ha : ∀ z ∈ zs, st z ≠ none) {w : List Nat} {A t l : Nat} :
    backFinal f ⟨zs.map (hold L st w A), t, l⟩ = true ↔ ∃ z, zs.getLast? = some z ∧ z ∈ L := by
  unfold backFinal
  simp only [List.getLast?_map]
  cases hz : zs.getLast? with
  | none => simp
  | some z =>
    obtain ⟨q, hq⟩ := Option.ne_none_iff_exists'.1 (ha z (List.mem_of_getLast? hz))
    simp only [Option.map_some, Option.getD_some, Option.some.injEq, exists_eq_left']
    have : (hold L st w A z).state = q := by unfold hold; rw [hq]; rfl
    rw [this]
    exact hs.fin z q hq

theorem any_map {zs : List (List Nat)} (ha : ∀ z ∈ zs, st z ≠ none) {w : List Nat} {A q : Nat} :
    ((zs.map (hold L st w A)).any fun h => h.state == q) = true ↔ ∃ z ∈ zs, st z = some q := by
  rw [List.any_map, List.any_eq_true]
  constructor
  · rintro ⟨z, hz, h⟩
    obtain ⟨p, hp⟩ := Option.ne_none_iff_exists'.1 (ha z hz)
    refine ⟨z, hz, ?_⟩
    simp only [Function.comp_apply, beq_iff_eq, hold, hp, Option.getD_some] at h
    rw [hp, h]
  · rintro ⟨z, hz, h⟩
    exact ⟨z, hz, by simp [hold, h]⟩

/-- One entry of `States` moves on. -/
noncomputable def advOne (L : Language Nat) (st : List Nat → Option Nat) (acc : List (List Nat)) (z : List Nat) : List (List Nat) :=
  if st z = none then acc
  else if ∃ y ∈ acc, st y = st z then acc
  else if ∃ y, acc.getLast? = some y ∧ y ∈ L then acc
  else acc ++ [z]

theorem advOne_alive {acc : List (List Nat)} {z : List Nat} (ha : ∀ z ∈ acc, st z ≠ none) : ∀ y ∈ advOne L st acc z, st y ≠ none := by
  intro y hy
  unfold advOne at hy
  split at hy
  · exact ha y hy
  · split at hy
    · exact ha y hy
    · split at hy
      · exact ha y hy
      · rcases List.mem_append.1 hy with h | h
        · exact ha y h
        · rw [List.mem_singleton.1 h]; assumption

/-- The places `p1` complete no match. -/
theorem advance_quiet (hs : Sim f L st) {w : List Nat} {c A l : Nat} (hc : IsLetter c) (hE : c ≠ EndMark) (xs : List (List Nat))
    (hx : ∀ x ∈ xs, st x ≠ none ∧ x ++ [c] ∉ L ∧ upTo L (w ++ [c]) (x ++ [c]) = upTo L w x) (acc : List (List Nat)) (ha : ∀ z ∈ acc, st z ≠ none)
    (hn : ∀ z ∈ acc, z ∉ L) :
    (xs.map (hold L st w A)).foldl (fun n h => (elems (f.destinations h.state c)).foldl (fun n q => addState f n q h.count h.reached false) n)
      ⟨acc.map (hold L st (w ++ [c]) A), 0, l⟩ = ⟨((xs.map (· ++ [c])).foldl (advOne L st) acc).map (hold L st (w ++ [c]) A), 0, l⟩ := by
  induction xs generalizing acc with
  | nil => rfl
  | cons x xs ih =>
    rw [List.map_cons, List.foldl_cons, List.map_cons, List.foldl_cons]
    obtain ⟨h1, h2, h3⟩ := hx x List.mem_cons_self
    obtain ⟨q, hq⟩ := Option.ne_none_iff_exists'.1 h1
    have e1 : (hold L st w A x).state = q := by unfold hold; rw [hq]; rfl
    have e2 : (hold L st w A x).count = upTo L w x - A := rfl
    have e3 : (hold L st w A x).reached = decide (Hit L x) := rfl
    have hadv : ∀ z ∈ advOne L st acc (x ++ [c]), z ∉ L := by
      intro z hz
      unfold advOne at hz
      split at hz
      · exact hn z hz
      · split at hz
        · exact hn z hz
        · split at hz
          · exact hn z hz
          · rcases List.mem_append.1 hz with h | h
            · exact hn z h
            · rw [List.mem_singleton.1 h]; exact h2
    rw [← ih (fun y hy => hx y (List.mem_cons_of_mem _ hy)) _ (advOne_alive ha) hadv, e1, hs.dst x q c hc hE hq]
    congr 1
    cases hz : st (x ++ [c]) with
    | none => unfold advOne; rw [if_pos hz]; rfl
    | some p =>
      have hnf : f.isFinal p = false := by
        rw [Bool.eq_false_iff]; intro h; exact h2 ((hs.fin _ _ hz).1 h)
      rw [Option.toList_some, List.foldl_cons, List.foldl_nil, e2, e3]
      unfold addState
      simp only [hnf, Bool.false_and, Bool.false_eq_true, if_false, Bool.or_false]
      unfold advOne
      rw [hz, if_neg (show ¬ (some p : Option Nat) = none from nofun)]
      by_cases hy : ∃ y ∈ acc, st y = some p
      · rw [if_pos ((any_map ha).2 hy), if_pos hy]
      · rw [if_neg (fun h => hy ((any_map ha).1 h)), if_neg hy]
        have hb : ¬ ∃ y, acc.getLast? = some y ∧ y ∈ L := fun ⟨y, hy, hyL⟩ => hn y (List.mem_of_getLast? hy) hyL
        have hbf : backFinal f ⟨acc.map (hold L st (w ++ [c]) A), 0, l⟩ = false := by
          rw [Bool.eq_false_iff]; intro h; exact hb ((backFinal_map hs ha).1 h)
        rw [if_neg hb, hbf, if_pos (show (!false) = true from rfl), List.map_append, List.map_singleton]
        congr 2
        unfold hold
        rw [hz, h3]
        congr 2
        rw [decide_eq_decide, hit_snoc]
        exact ⟨Or.inl, fun h => h.resolve_right h2⟩

/-- Behind a match nothing is added. -/
theorem advance_behind {w : List Nat} {c l t : Nat} {hsL : List Holder} (xs : List (List Nat)) {A : Nat}
    (hb : backFinal f ⟨hsL, t, l⟩ = true) :
    (xs.map (hold L st w A)).foldl (fun n h => (elems (f.destinations h.state c)).foldl (fun n q => addState f n q h.count h.reached false) n)
      ⟨hsL, t, l⟩ = ⟨hsL, t, l⟩ := by
  have key : ∀ q k r, addState f ⟨hsL, t, l⟩ q k r false = ⟨hsL, t, l⟩ := by
    intro q k r
    unfold addState
    simp only [hb, Bool.not_true, Bool.or_self, Bool.false_eq_true, if_false]
    split <;> rfl
  induction xs with
  | nil => rfl
  | cons x xs ih =>
    rw [List.map_cons, List.foldl_cons]
    have : ∀ l' : List Nat, l'.foldl (fun n q => addState f n q (hold L st w A x).count (hold L st w A x).reached false) ⟨hsL, t, l⟩ = ⟨hsL, t, l⟩ := by
      intro l'
      induction l' with
      | nil => rfl
      | cons q l' ih' => rw [List.foldl_cons, key, ih']
    rw [this, ih]

/-- What `advOne` leaves. -/
theorem advOne_foldl (zs : List (List Nat)) (acc : List (List Nat)) (hn : ∀ z ∈ zs, z ∉ L) (ha : ∀ z ∈ acc, z ∉ L)
    (hp : zs.Pairwise fun x y => y.length < x.length) (hacc : ∀ y ∈ acc, ∀ z ∈ zs, z.length < y.length) :
    ∃ r, zs.foldl (advOne L st) acc = acc ++ r ∧ r.Sublist zs ∧ (∀ z ∈ r, st z ≠ none) ∧
      ∀ z ∈ zs, st z ≠ none → ∃ y ∈ acc ++ r, st y = st z ∧ z.length ≤ y.length := by
  induction zs generalizing acc with
  | nil => exact ⟨[], by simp, by simp, by simp, by simp⟩
  | cons z zs ih =>
    rw [List.pairwise_cons] at hp
    rw [List.foldl_cons]
    have hb : ¬ ∃ y, acc.getLast? = some y ∧ y ∈ L := fun ⟨y, hy, hyL⟩ => ha y (List.mem_of_getLast? hy) hyL
    have hskip : advOne L st acc z = acc → (st z ≠ none → ∃ y ∈ acc, st y = st z) → ∃ r, zs.foldl (advOne L st) (advOne L st acc z) = acc ++ r ∧ r.Sublist (z :: zs) ∧
        (∀ z ∈ r, st z ≠ none) ∧ ∀ y ∈ z :: zs, st y ≠ none → ∃ y' ∈ acc ++ r, st y' = st y ∧ y.length ≤ y'.length := by
      intro e hz
      rw [e]
      obtain ⟨r, r1, r2, r3, r4⟩ := ih acc (fun y hy => hn y (List.mem_cons_of_mem _ hy)) ha hp.2
        (fun y hy z' hz' => hacc y hy z' (List.mem_cons_of_mem _ hz'))
      refine ⟨r, r1, r2.cons _, r3, fun y hy hy' => ?_⟩
      rcases List.mem_cons.1 hy with rfl | hy
      · obtain ⟨y', h1, h2⟩ := hz hy'
        exact ⟨y', List.mem_append_left _ h1, h2, le_of_lt (hacc y' h1 _ List.mem_cons_self)⟩
      · exact r4 y hy hy'
    by_cases h1 : st z = none
    · exact hskip (by unfold advOne; rw [if_pos h1]) (fun h => absurd h1 h)
    · by_cases h2 : ∃ y ∈ acc, st y = st z
      · exact hskip (by unfold advOne; rw [if_neg h1, if_pos h2]) (fun _ => h2)
      · have e : advOne L st acc z = acc ++ [z] := by unfold advOne; rw [if_neg h1, if_neg h2, if_neg hb]
        rw [e]
        obtain ⟨r, r1, r2, r3, r4⟩ := ih (acc ++ [z]) (fun y hy => hn y (List.mem_cons_of_mem _ hy))
          (fun y hy => by
            rcases List.mem_append.1 hy with h | h
            · exact ha y h
            · rw [List.mem_singleton.1 h]; exact hn z List.mem_cons_self) hp.2
          (fun y hy z' hz' => by
            rcases List.mem_append.1 hy with h | h
            · exact hacc y h z' (List.mem_cons_of_mem _ hz')
            · rw [List.mem_singleton.1 h]; exact hp.1 z' hz')
        refine ⟨z :: r, by rw [r1]; simp, r2.cons_cons _, ?_, fun y hy hy' => ?_⟩
        · intro y hy
          rcases List.mem_cons.1 hy with rfl | hy
          · exact h1
          · exact r3 y hy
        · rcases List.mem_cons.1 hy with rfl | hy
          · exact ⟨y, by simp, rfl, Nat.le_refl _⟩
          · obtain ⟨y', h3, h4⟩ := r4 y hy hy'
            exact ⟨y', by simpa using h3, h4⟩

/-! ### `FinishBuild` -/

theorem foldl_min_spec (hs : List Holder) (a : Nat) :
    (∀ h ∈ hs, hs.foldl (fun m h => min h.count m) a ≤ h.count) ∧ hs.foldl (fun m h => min h.count m) a ≤ a ∧
    (hs.foldl (fun m h => min h.count m) a = a ∨ ∃ h ∈ hs, hs.foldl (fun m h => min h.count m) a = h.count) := by
  induction hs generalizing a with
  | nil => simp
  | cons x hs ih =>
    rw [List.foldl_cons]
    obtain ⟨i1, i2, i3⟩ := ih (min x.count a)
    refine ⟨?_, by omega, ?_⟩
    · intro h hh
      rcases List.mem_cons.1 hh with rfl | hh
      · omega
      · exact i1 h hh
    · rcases i3 with h | ⟨y, hy, h⟩
      · rcases Nat.le_total x.count a with h' | h'
        · right; exact ⟨x, List.mem_cons_self, by omega⟩
        · left; omega
      · right; exact ⟨y, List.mem_cons_of_mem _ hy, h⟩

theorem upTo_le (w x : List Nat) : upTo L w x ≤ tokens L w := by
  unfold upTo tokens
  refine List.countP_mono_left fun y _ h => ?_
  simp only [decide_eq_true_eq] at h ⊢
  exact h.1

/-- `settle` on a list of places. -/
theorem settle_spec {w : List Nat} {A l D t : Nat} {zs : List (List Nat)} (hD : D < 2 ^ 64)
    (hsub : zs.Sublist (starts L w)) (ha : ∀ z ∈ zs, st z ≠ none)
    (hcov : ∀ y ∈ starts L w, st y ≠ none → ∃ x ∈ zs, st x = st y ∧ y.length ≤ x.length)
    (hle : ∀ z ∈ zs, A ≤ upTo L w z) (hl : l + A = tokens L w) (hcap : tokens L w - A ≤ D)
    (hb : ∃ x, zs.getLast? = some x ∧ upTo L w x = tokens L w) :
    Inv L st w (A + (settle D ⟨zs.map (hold L st w A), t, l⟩).toAdd) (settle D ⟨zs.map (hold L st w A), t, l⟩) zs := by
  have hcount : ∀ z ∈ zs, (hold L st w A z).count ≤ D := fun z hz => by
    have := upTo_le (L := L) w z
    show upTo L w z - A ≤ D
    omega
  have e1 : (zs.map (hold L st w A)).map (fun h => { h with count := min h.count D }) = zs.map (hold L st w A) := by
    rw [List.map_map]
    refine List.map_congr_left fun z hz => ?_
    have := hcount z hz
    simp only [Function.comp_apply]
    rw [Nat.min_eq_left this]
  obtain ⟨m, hm⟩ : ∃ m, m = (zs.map (hold L st w A)).foldl (fun m h => min h.count m) (((zs.map (hold L st w A)).headD ⟨0, 0, false⟩).count) := ⟨_, rfl⟩
  have hs1 : settle D ⟨zs.map (hold L st w A), t, l⟩ =
      { states := (zs.map (hold L st w A)).map fun h => { h with count := h.count - m }, toAdd := m, last := (min l D + 2 ^ 64 - m) % 2 ^ 64 } := by
    unfold settle
    simp only [e1, ← hm]
  obtain ⟨x, hx, hxu⟩ := hb
  have hxm := List.mem_of_getLast? hx
  obtain ⟨k1, k2, k3⟩ := foldl_min_spec (zs.map (hold L st w A)) (((zs.map (hold L st w A)).headD ⟨0, 0, false⟩).count)
  rw [← hm] at k1 k2 k3
  have kle : ∀ z ∈ zs, m ≤ upTo L w z - A := fun z hz => k1 _ (List.mem_map_of_mem hz)
  have keq : ∃ z ∈ zs, m = upTo L w z - A := by
    rcases k3 with h | ⟨h', hh, h⟩
    · cases zs with
      | nil => simp at hxm
      | cons z zs => exact ⟨z, List.mem_cons_self, h⟩
    · obtain ⟨z, hz, rfl⟩ := List.mem_map.1 hh
      exact ⟨z, hz, h⟩
  rw [hs1]
  have hml := kle x hxm
  rw [hxu] at hml
  refine ⟨hsub, ha, ?_, hcov, ?_, ?_, ?_, ⟨x, hx, hxu⟩⟩
  · simp only [List.map_map]
    refine List.map_congr_left fun z _ => ?_
    simp only [Function.comp_apply, hold, Nat.sub_sub]
  · intro z hz
    have := kle z hz
    have := hle z hz
    simp only; omega
  · obtain ⟨z, hz, h⟩ := keq
    have := hle z hz
    exact ⟨z, hz, by simp only; omega⟩
  · simp only
    clear keq k3 k2 k1 hs1 hm
    rw [Nat.min_eq_left (by omega)]
    have : (l + 2 ^ 64 - m) % 2 ^ 64 = l - m := by
      rw [show l + 2 ^ 64 - m = (l - m) + 2 ^ 64 by omega, Nat.add_mod_right, Nat.mod_eq_of_lt (by omega)]
    omega

theorem initial_not_final (hs : Sim f L st) (h0 : [] ∉ L) : f.isFinal f.initial = false := by
  rw [Bool.eq_false_iff]; intro h; exact h0 ((hs.fin [] _ hs.nil).1 h)

/-- The forced `AddState` of the initial state. -/
theorem addInitial (hs : Sim f L st) (h0 : [] ∉ L) {w : List Nat} {A t l : Nat} {acc : List (List Nat)} (ha : ∀ z ∈ acc, st z ≠ none) :
    addState f ⟨acc.map (hold L st w A), t, l⟩ f.initial (tokens L w - A) false true =
      ⟨(if ∃ z ∈ acc, st z = some f.initial then acc else acc ++ [[]]).map (hold L st w A), t, l⟩ := by
  unfold addState
  simp only [initial_not_final hs h0, Bool.false_and, Bool.false_eq_true, if_false, Bool.or_true, if_true]
  by_cases h : ∃ z ∈ acc, st z = some f.initial
  · rw [if_pos ((any_map ha).2 h), if_pos h]
  · rw [if_neg (fun h' => h ((any_map ha).1 h')), if_neg h, List.map_append, List.map_singleton]
    congr 2
    unfold hold
    rw [hs.nil, upTo_nil]
    simp [hit_nil]

/-- `FinishBuild` after the loops of `Next`. -/
theorem finish_spec (hs : Sim f L st) (h0 : [] ∉ L) {w : List Nat} {A l D : Nat} (hD : D < 2 ^ 64) {acc : List (List Nat)} {lastCount : Nat}
    (hsub : (acc ++ [[]]).Sublist (starts L w)) (ha : ∀ z ∈ acc, st z ≠ none)
    (hcov : ∀ y ∈ starts L w, y ≠ [] → st y ≠ none → ∃ x ∈ acc, st x = st y ∧ y.length ≤ x.length)
    (hle : ∀ z ∈ acc, A ≤ upTo L w z) (hl : l + A = tokens L w) (hcap : tokens L w - A ≤ D)
    (hlast : if ∃ z, acc.getLast? = some z ∧ z ∈ L then ∃ z, acc.getLast? = some z ∧ upTo L w z = tokens L w else lastCount = tokens L w - A)
    (hret : (∃ z ∈ acc, st z = some f.initial) → ∃ x, acc.getLast? = some x ∧ upTo L w x = tokens L w) :
    ∃ zs, Inv L st w (A + (finishBuild f ⟨acc.map (hold L st w A), 0, l⟩ D lastCount).toAdd) (finishBuild f ⟨acc.map (hold L st w A), 0, l⟩ D lastCount) zs := by
  have hlc : (if backFinal f ⟨acc.map (hold L st w A), 0, l⟩ = true then
      (((acc.map (hold L st w A)).getLast?.map (·.count)).getD 0) else lastCount) = tokens L w - A := by
    by_cases hb : ∃ z, acc.getLast? = some z ∧ z ∈ L
    · rw [if_pos ((backFinal_map hs ha).2 hb)]
      rw [if_pos hb] at hlast
      obtain ⟨z, hz, hu⟩ := hlast
      rw [List.getLast?_map, hz]
      show upTo L w z - A = _
      rw [hu]
    · rw [if_neg (fun h => hb ((backFinal_map hs ha).1 h))]
      rw [if_neg hb] at hlast
      exact hlast
  have e : finishBuild f ⟨acc.map (hold L st w A), 0, l⟩ D lastCount =
      settle D (addState f ⟨acc.map (hold L st w A), 0, l⟩ f.initial (tokens L w - A) false true) := by
    rw [← hlc]; rfl
  rw [e, addInitial hs h0 ha]
  refine ⟨if ∃ z ∈ acc, st z = some f.initial then acc else acc ++ [[]], ?_⟩
  by_cases h : ∃ z ∈ acc, st z = some f.initial
  · rw [if_pos h]
    refine settle_spec hD ((List.sublist_append_left _ _).trans hsub) ha (fun y hy hy' => ?_) hle hl hcap (hret h)
    by_cases hy0 : y = []
    · obtain ⟨z, hz, hzi⟩ := h
      exact ⟨z, hz, by rw [hzi, hy0, hs.nil], by rw [hy0]; exact Nat.zero_le _⟩
    · exact hcov y hy hy0 hy'
  · rw [if_neg h]
    refine settle_spec hD hsub ?_ (fun y hy hy' => ?_) ?_ hl hcap ⟨[], by simp, upTo_nil _⟩
    · intro z hz
      rcases List.mem_append.1 hz with h' | h'
      · exact ha z h'
      · rw [List.mem_singleton.1 h', hs.nil]; simp
    · by_cases hy0 : y = []
      · exact ⟨[], by simp, by rw [hy0], by rw [hy0]⟩
      · obtain ⟨x, hx, hx'⟩ := hcov y hy hy0 hy'
        exact ⟨x, List.mem_append_left _ hx, hx'⟩
    · intro z hz
      rcases List.mem_append.1 hz with h' | h'
      · exact hle z h'
      · rw [List.mem_singleton.1 h', upTo_nil]; omega

/-! ### `Next` -/

/-- What the language has to satisfy for the counter to be exact with the depth `D`. -/
structure Cond (f : Fsm) (L : Language Nat) (st : List Nat → Option Nat) (D : Nat) : Prop where
  nil : [] ∉ L
  lt : D < 2 ^ 64
  depth : ∀ x, st x ≠ none → later L x < D
  swallow : ∀ x c, st x ≠ none → x ++ [c] ∈ L → Hit L x → later L x = 0
  ret : ∀ x, x ≠ [] → st x = some f.initial → ∀ y, st y ≠ none → later L y = 0

theorem inv_cap {w : List Nat} {A D : Nat} {S : DSt} {xs : List (List Nat)} (hC : Cond f L st D) (h : Inv L st w A S xs) : tokens L w - A < D ∧ A ≤ tokens L w := by
  obtain ⟨x, hx, hA⟩ := h.eq
  have h1 := upTo_later (h.sub.subset hx)
  have h2 := hC.depth x (h.alive x hx)
  omega

theorem split_at {l xs : List (List Nat)} {x : List Nat} (hs : xs.Sublist l) (hx : x ∈ xs) (hp : l.Pairwise fun x y => y.length < x.length)
    {p1 p2 : List (List Nat)} (hl : l = p1 ++ x :: p2) : ∃ a b, xs = a ++ x :: b ∧ a.Sublist p1 := by
  obtain ⟨a, b, rfl⟩ := List.append_of_mem hx
  refine ⟨a, b, rfl, ?_⟩
  subst hl
  obtain ⟨l1, l2, e, h1, h2⟩ := List.append_sublist_iff.1 hs
  rw [List.pairwise_append, List.pairwise_cons] at hp
  obtain ⟨hp1, ⟨hp2, -⟩, hp3⟩ := hp
  have hx2 : x ∈ l2 := h2.subset List.mem_cons_self
  rcases List.append_eq_append_iff.1 e with ⟨r, e1, e2⟩ | ⟨r, e1, e2⟩
  · -- `l1 = p1 ++ r`, `x :: p2 = r ++ l2`
    cases r with
    | nil => rw [e1, List.append_nil] at h1; exact h1
    | cons y r =>
      rw [List.cons_append, List.cons.injEq] at e2
      have := hp2 x (by rw [e2.2]; exact List.mem_append_right _ hx2)
      omega
  · -- `p1 = l1 ++ r`
    rw [e1]
    exact h1.trans (List.sublist_append_left _ _)

theorem next_spec (hs : Sim f L st) {w : List Nat} {A D : Nat} {S : DSt} {xs : List (List Nat)} (hC : Cond f L st D) (h : Inv L st w A S xs)
    {c : Nat} (hc : IsLetter c) (hE : c ≠ EndMark) :
    ∃ zs, Inv L st (w ++ [c]) (A + (next f D S c).toAdd) (next f D S c) zs := by
  obtain ⟨hcap, hA⟩ := inv_cap hC h
  have hnext : next f D S c = finishBuild f (advance f S c) D ((S.states.getLast?.map (·.count)).getD 0) := by
    unfold next; simp only [if_neg hE]
  obtain ⟨bx, hbx, hbu⟩ := h.back
  have hlc : (S.states.getLast?.map (·.count)).getD 0 = tokens L w - A := by
    rw [h.states, List.getLast?_map, hbx]
    show upTo L w bx - A = _
    rw [hbu]
  have hpw := starts_pairwise (L := L) w
  have hadv : advance f S c = (xs.map (hold L st w A)).foldl (fun n h => (elems (f.destinations h.state c)).foldl
      (fun n q => addState f n q h.count h.reached false) n) ⟨[], 0, S.last⟩ := by unfold advance; rw [h.states]
  rw [hnext, hlc, hadv]
  have hsplit : ∀ x ∈ starts L w, ∃ p1 p2, starts L w = p1 ++ x :: p2 := fun x hx => List.append_of_mem hx
  rcases first_hit (L := L) (starts L w) c with hq | ⟨p1, x, p2, hst, hq, hx⟩
  · -- no match is completed
    obtain ⟨e1, e2⟩ := tokens_snoc_none hq
    have hup : ∀ x ∈ starts L w, upTo L (w ++ [c]) (x ++ [c]) = upTo L w x := by
      intro x hx
      obtain ⟨p1, p2, hp⟩ := hsplit x hx
      rw [upTo_snoc hp fun y hy => hq y (by rw [hp]; exact List.mem_append_left _ hy), if_neg fun h' => hq x hx h'.1, Nat.add_zero]
    have := advance_quiet hs (w := w) (A := A) (l := S.last) hc hE xs (fun x hx => ⟨h.alive x hx, hq x (h.sub.subset hx), hup x (h.sub.subset hx)⟩) []
      (by simp) (by simp)
    rw [List.map_nil] at this
    rw [this]
    obtain ⟨r, r1, r2, r3, r4⟩ := advOne_foldl (L := L) (st := st) (xs.map (· ++ [c])) [] (by
        intro z hz; obtain ⟨x, hx, rfl⟩ := List.mem_map.1 hz; exact hq x (h.sub.subset hx)) (by simp) (by
        rw [List.pairwise_map]
        exact (hpw.sublist h.sub).imp fun h' => by simpa using h') (by simp)
    rw [List.nil_append] at r1
    rw [r1]
    have hrm : ∀ z ∈ r, ∃ x ∈ xs, z = x ++ [c] := fun z hz => by
      obtain ⟨x, hx, rfl⟩ := List.mem_map.1 (r2.subset hz); exact ⟨x, hx, rfl⟩
    have hsub : (r ++ [[]]).Sublist (starts L (w ++ [c])) := by
      rw [e1]
      exact (r2.trans (h.sub.map _)).append (List.Sublist.refl _)
    refine finish_spec hs hC.nil hC.lt hsub r3 ?_ ?_ (by rw [e2]; exact h.last) (by rw [e2]; omega) ?_ ?_
    · intro y hy hy0 hya
      rw [e1] at hy
      rcases List.mem_append.1 hy with hy | hy
      · obtain ⟨y, hyy, rfl⟩ := List.mem_map.1 hy
        have hya' : st y ≠ none := fun h' => hya (hs.dead y c h')
        obtain ⟨x, hx, hxy, hlen⟩ := h.cover y hyy hya'
        obtain ⟨q, hq'⟩ := Option.ne_none_iff_exists'.1 hya'
        have hxc := hs.step x y q c (by rw [hxy, hq']) hq'
        obtain ⟨z, hz, hz1, hz2⟩ := r4 (x ++ [c]) (List.mem_map_of_mem hx) (by rw [hxc]; exact hya)
        refine ⟨z, by simpa using hz, by rw [hz1, hxc], ?_⟩
        rw [List.length_append] at hz2 ⊢
        omega
      · exact absurd (List.mem_singleton.1 hy) hy0
    · intro z hz
      obtain ⟨x, hx, rfl⟩ := hrm z hz
      rw [hup x (h.sub.subset hx)]
      exact h.le x hx
    · rw [if_neg]
      · rw [e2]
      · rintro ⟨z, hz, hzL⟩
        obtain ⟨x, hx, rfl⟩ := hrm z (List.mem_of_getLast? hz)
        exact hq x (h.sub.subset hx) hzL
    · rintro ⟨z, hz, hzi⟩
      obtain ⟨b, hb⟩ : ∃ b, r.getLast? = some b := by
        cases hr : r.getLast? with
        | none => rw [List.getLast?_eq_none_iff] at hr; rw [hr] at hz; cases hz
        | some b => exact ⟨b, rfl⟩
      refine ⟨b, hb, ?_⟩
      have hbm := List.mem_of_getLast? hb
      have h1 := upTo_later (L := L) (w := w ++ [c]) (x := b) (hsub.subset (List.mem_append_left _ hbm))
      obtain ⟨x, hx, rfl⟩ := hrm z hz
      have h2 := hC.ret _ (by simp) hzi b (r3 b hbm)
      omega
  · -- the match at `x` is completed
    obtain ⟨e1, e2⟩ := tokens_snoc_hit hst hq hx
    have hxst : x ∈ starts L w := by rw [hst]; exact List.mem_append_right _ List.mem_cons_self
    have hxa : st (x ++ [c]) ≠ none := fun h' => hs.gone _ h' hx
    have hxa' : st x ≠ none := fun h' => hxa (hs.dead x c h')
    have hxx : x ∈ xs := by
      obtain ⟨y, hy, hyx, hlen⟩ := h.cover x hxst hxa'
      obtain ⟨q, hq'⟩ := Option.ne_none_iff_exists'.1 hxa'
      have hyL : y ++ [c] ∈ L := (hs.same y x q [c] (by rw [hyx, hq']) hq').2 hx
      have hyst := h.sub.subset hy
      rw [hst] at hyst
      rcases List.mem_append.1 hyst with h' | h'
      · exact absurd hyL (hq y h')
      · rcases List.mem_cons.1 h' with rfl | h'
        · exact hy
        · rw [hst, List.pairwise_append, List.pairwise_cons] at hpw
          have := hpw.2.1.1 y h'
          omega
    obtain ⟨a, b, hab, hap⟩ := split_at h.sub hxx hpw hst
    have hup : ∀ y ∈ p1, upTo L (w ++ [c]) (y ++ [c]) = upTo L w y := by
      intro y hy
      obtain ⟨s1, s2, hp⟩ := List.append_of_mem hy
      rw [upTo_snoc (p1 := s1) (p2 := s2 ++ x :: p2) (by rw [hst, hp]; simp) fun y' hy' => hq y' (by rw [hp]; exact List.mem_append_left _ hy'),
        if_neg fun h' => hq y hy h'.1, Nat.add_zero]
    have hupx := upTo_snoc hst hq
    have haxs : ∀ y ∈ a, y ∈ xs := fun y hy => by rw [hab]; exact List.mem_append_left _ hy
    have hquiet := advance_quiet hs (w := w) (A := A) (l := S.last) hc hE a
      (fun y hy => ⟨h.alive y (haxs y hy), hq y (hap.subset hy), hup y (hap.subset hy)⟩) [] (by simp) (by simp)
    rw [List.map_nil] at hquiet
    obtain ⟨r, r1, r2, r3, r4⟩ := advOne_foldl (L := L) (st := st) (a.map (· ++ [c])) [] (by
        intro z hz; obtain ⟨y, hy, rfl⟩ := List.mem_map.1 hz; exact hq y (hap.subset hy)) (by simp) (by
        rw [List.pairwise_map]
        refine ((hpw.sublist h.sub).sublist ?_).imp fun h' => by simpa using h'
        rw [hab]; exact List.sublist_append_left _ _) (by simp)
    rw [List.nil_append] at r1
    rw [r1] at hquiet
    have hrm : ∀ z ∈ r, ∃ y ∈ a, z = y ++ [c] := fun z hz => by
      obtain ⟨y, hy, rfl⟩ := List.mem_map.1 (r2.subset hz); exact ⟨y, hy, rfl⟩
    have hrL : ∀ z ∈ r, z ∉ L := fun z hz => by obtain ⟨y, hy, rfl⟩ := hrm z hz; exact hq y (hap.subset hy)
    obtain ⟨q, hq'⟩ := Option.ne_none_iff_exists'.1 hxa'
    obtain ⟨p, hp'⟩ := Option.ne_none_iff_exists'.1 hxa
    have hpf : f.isFinal p = true := (hs.fin _ _ hp').2 hx
    -- the step of `x` itself
    have hpush : addState f ⟨r.map (hold L st (w ++ [c]) A), 0, S.last⟩ p (upTo L w x - A) (decide (Hit L x)) false =
        ⟨(r ++ [x ++ [c]]).map (hold L st (w ++ [c]) A), 0, tokens L (w ++ [c]) - A⟩ := by
      have hnoany : ¬ ∃ z ∈ r, st z = some p := by
        rintro ⟨z, hz, hzp⟩
        have := (hs.same z (x ++ [c]) p [] hzp hp').2 (by rwa [List.append_nil])
        rw [List.append_nil] at this
        exact hrL z hz this
      have hbf : backFinal f ⟨r.map (hold L st (w ++ [c]) A), 0, S.last⟩ = false := by
        rw [Bool.eq_false_iff]; intro h'
        obtain ⟨z, hz, hzL⟩ := (backFinal_map hs r3).1 h'
        exact hrL z (List.mem_of_getLast? hz) hzL
      have hle := h.le x hxx
      unfold addState
      simp only [hpf, Bool.true_and, hbf, Bool.not_false, Bool.true_or, if_true]
      rw [if_neg fun h' => hnoany ((any_map r3).1 h'), List.map_append, List.map_singleton]
      by_cases hit : Hit L x
      · rw [if_neg (by simp [hit]), if_neg (by simp [hit])]
        rw [if_neg fun h' => h'.2 hit, Nat.add_zero] at hupx
        have hlat := hC.swallow x c hxa' hx hit
        have hul := upTo_later (L := L) hxst
        have hlast := h.last
        congr 1
        · congr 2
          unfold hold
          rw [hp', hupx]
          have : Hit L (x ++ [c]) := hit_snoc.2 (Or.inl hit)
          simp [hit, this]
        · omega
      · rw [if_pos (by simp [hit]), if_pos (by simp [hit])]
        rw [if_pos ⟨hx, hit⟩] at hupx
        congr 1
        · congr 2
          unfold hold
          rw [hp', hupx]
          have : Hit L (x ++ [c]) := hit_snoc.2 (Or.inr hx)
          simp only [hit, this, Option.getD_some, decide_false, decide_true, Bool.not_false, Bool.or_true]
          congr 1
          omega
        · omega
    have hfin : (xs.map (hold L st w A)).foldl (fun n h => (elems (f.destinations h.state c)).foldl
        (fun n q => addState f n q h.count h.reached false) n) ⟨[], 0, S.last⟩ =
        ⟨(r ++ [x ++ [c]]).map (hold L st (w ++ [c]) A), 0, tokens L (w ++ [c]) - A⟩ := by
      rw [hab, List.map_append, List.foldl_append, hquiet, List.map_cons, List.foldl_cons]
      have e3 : (hold L st w A x).state = q := by unfold hold; rw [hq']; rfl
      rw [e3, hs.dst x q c hc hE hq', hp', Option.toList_some, List.foldl_cons, List.foldl_nil]
      have e4 : (hold L st w A x).count = upTo L w x - A := rfl
      have e5 : (hold L st w A x).reached = decide (Hit L x) := rfl
      rw [e4, e5, hpush]
      apply advance_behind
      rw [backFinal_map hs]
      · exact ⟨x ++ [c], by simp, hx⟩
      · intro z hz
        rcases List.mem_append.1 hz with h' | h'
        · exact r3 z h'
        · rw [List.mem_singleton.1 h']; exact hxa
    rw [hfin]
    have hAle : A ≤ upTo L (w ++ [c]) (x ++ [c]) := by have := h.le x hxx; omega
    have hsub : (r ++ [x ++ [c]] ++ [[]]).Sublist (starts L (w ++ [c])) := by
      rw [e1, List.append_assoc]
      exact (r2.trans (hap.map _)).append (List.Sublist.refl _)
    have htok : tokens L (w ++ [c]) ≤ tokens L w + 1 := by
      have := upTo_le (L := L) w x
      rw [e2, hupx]
      split <;> omega
    have hret : ∀ z ∈ r ++ [x ++ [c]], z ≠ [] := by
      intro z hz
      rcases List.mem_append.1 hz with h' | h'
      · obtain ⟨y, -, rfl⟩ := hrm z h'; simp
      · rw [List.mem_singleton.1 h']; simp
    refine finish_spec hs hC.nil hC.lt hsub ?_ ?_ ?_ (by omega) (by omega) ?_ ?_
    · intro z hz
      rcases List.mem_append.1 hz with h' | h'
      · exact r3 z h'
      · rw [List.mem_singleton.1 h']; exact hxa
    · intro y hy hy0 hya
      rw [e1] at hy
      rcases List.mem_append.1 hy with hy | hy
      · obtain ⟨y, hyy, rfl⟩ := List.mem_map.1 hy
        have hya' : st y ≠ none := fun h' => hya (hs.dead y c h')
        obtain ⟨x', hx', hxy, hlen⟩ := h.cover y (by rw [hst]; exact List.mem_append_left _ hyy) hya'
        obtain ⟨q, hq'⟩ := Option.ne_none_iff_exists'.1 hya'
        have hxc := hs.step x' y q c (by rw [hxy, hq']) hq'
        have hxa : x' ∈ a := by
          rw [hab] at hx'
          rcases List.mem_append.1 hx' with h' | h'
          · exact h'
          · exfalso
            rw [hst, List.pairwise_append, List.pairwise_cons] at hpw
            have h3 : x'.length ≤ x.length := by
              rcases List.mem_cons.1 h' with rfl | h'
              · exact Nat.le_refl _
              · have h4 := (starts_pairwise (L := L) w).sublist h.sub
                rw [hab, List.pairwise_append, List.pairwise_cons] at h4
                exact le_of_lt (h4.2.1.1 x' h')
            have h5 := hpw.2.2 y hyy x List.mem_cons_self
            omega
        obtain ⟨z, hz, hz1, hz2⟩ := r4 (x' ++ [c]) (List.mem_map_of_mem hxa) (by rw [hxc]; exact hya)
        refine ⟨z, List.mem_append_left _ (by simpa using hz), by rw [hz1, hxc], ?_⟩
        rw [List.length_append] at hz2 ⊢
        omega
      · rcases List.mem_cons.1 hy with rfl | hy
        · exact ⟨_, by simp, rfl, Nat.le_refl _⟩
        · exact absurd (List.mem_singleton.1 hy) hy0
    · intro z hz
      rcases List.mem_append.1 hz with h' | h'
      · obtain ⟨y, hy, rfl⟩ := hrm z h'
        rw [hup y (hap.subset hy)]
        exact h.le y (haxs y hy)
      · rw [List.mem_singleton.1 h']; exact hAle
    · rw [if_pos ⟨x ++ [c], by simp, hx⟩]
      exact ⟨x ++ [c], by simp, e2.symm⟩
    · intro _
      exact ⟨x ++ [c], by simp, e2.symm⟩

theorem tokens_snoc_le (w : List Nat) (c : Nat) : tokens L (w ++ [c]) ≤ tokens L w + 1 := by
  rcases first_hit (L := L) (starts L w) c with hq | ⟨p1, x, p2, hst, hq, hx⟩
  · rw [(tokens_snoc_none hq).2]; omega
  · have := upTo_le (L := L) w x
    rw [(tokens_snoc_hit hst hq hx).2, upTo_snoc hst hq]
    split <;> omega

/-! ### The end mark -/

/-- The loops of `Next` for the end mark: only states of the second copy. -/
theorem advance_end (hs : Sim f L st) {S : DSt} {xs : List (List Nat)} {w : List Nat} {A : Nat} (ha : ∀ x ∈ xs, st x ≠ none)
    (he : S.states = xs.map (hold L st w A)) :
    (advance f S EndMark).last = S.last ∧ ∀ h ∈ (advance f S EndMark).states, f.isFinal h.state = false ∧ h.state ≠ f.initial := by
  have key : ∀ (l : List Nat) (k : Nat) (r : Bool) (n : DSt), (∀ p ∈ l, f.isFinal p = false ∧ p ≠ f.initial) →
      (n.last = S.last ∧ ∀ h ∈ n.states, f.isFinal h.state = false ∧ h.state ≠ f.initial) →
      (l.foldl (fun n q => addState f n q k r false) n).last = S.last ∧
        ∀ h ∈ (l.foldl (fun n q => addState f n q k r false) n).states, f.isFinal h.state = false ∧ h.state ≠ f.initial := by
    intro l k r
    induction l with
    | nil => intro n _ h; exact h
    | cons q l ih =>
      intro n hl hn
      rw [List.foldl_cons]
      refine ih _ (fun p hp => hl p (List.mem_cons_of_mem _ hp)) ?_
      obtain ⟨hq1, hq2⟩ := hl q List.mem_cons_self
      unfold addState
      simp only [hq1, Bool.false_and, Bool.false_eq_true, if_false]
      split
      · exact hn
      · split
        · refine ⟨hn.1, fun h hh => ?_⟩
          rcases List.mem_append.1 hh with h' | h'
          · exact hn.2 h h'
          · rw [List.mem_singleton.1 h']; exact ⟨hq1, hq2⟩
        · exact hn
  unfold advance
  rw [he]
  have : ∀ (xs : List (List Nat)) (n : DSt), (∀ x ∈ xs, st x ≠ none) →
      (n.last = S.last ∧ ∀ h ∈ n.states, f.isFinal h.state = false ∧ h.state ≠ f.initial) →
      ((xs.map (hold L st w A)).foldl (fun n h => (elems (f.destinations h.state EndMark)).foldl (fun n q => addState f n q h.count h.reached false) n) n).last = S.last ∧
        ∀ h ∈ ((xs.map (hold L st w A)).foldl (fun n h => (elems (f.destinations h.state EndMark)).foldl (fun n q => addState f n q h.count h.reached false) n) n).states,
          f.isFinal h.state = false ∧ h.state ≠ f.initial := by
    intro xs
    induction xs with
    | nil => intro n _ h; exact h
    | cons x xs ih =>
      intro n hx hn
      rw [List.map_cons, List.foldl_cons]
      refine ih _ (fun y hy => hx y (List.mem_cons_of_mem _ hy)) (key _ _ _ _ ?_ hn)
      obtain ⟨q, hq⟩ := Option.ne_none_iff_exists'.1 (hx x List.mem_cons_self)
      have e1 : (hold L st w A x).state = q := by unfold hold; rw [hq]; rfl
      rw [e1]
      exact hs.atEnd x q hq
  exact this xs _ ha ⟨rfl, by simp⟩

/-- The state in which a new text begins. -/
def fresh (f : Fsm) (t : Nat) : DSt := ⟨[⟨f.initial, 0, false⟩], t, 0⟩

theorem addState_fresh (hs : Sim f L st) (h0 : [] ∉ L) (t : Nat) : addState f ⟨[], t, 0⟩ f.initial 0 false true = fresh f t := by
  unfold addState
  simp [initial_not_final hs h0, fresh]

theorem start_eq (hs : Sim f L st) (h0 : [] ∉ L) : start f = fresh f 0 := by
  unfold start finishBuild
  have : backFinal f ⟨[], 0, 0⟩ = false := rfl
  rw [this]
  simp only [Bool.false_eq_true, if_false]
  rw [addState_fresh hs h0]
  simp [settle, fresh]

theorem fresh_inv (hs : Sim f L st) (t : Nat) : Inv L st [] 0 (fresh f t) [[]] := by
  have h1 : upTo L [] [] = 0 := by rw [upTo_nil, tokens_nil]
  refine ⟨by rw [starts_nil], ?_, ?_, ?_, ?_, ⟨[], by simp, h1.symm⟩, by rw [tokens_nil]; rfl, ⟨[], rfl, by rw [h1, tokens_nil]⟩⟩
  · intro x hx; rw [List.mem_singleton.1 hx, hs.nil]; simp
  · unfold fresh hold
    rw [List.map_singleton, hs.nil, h1]
    simp [hit_nil]
  · intro y hy _
    rw [starts_nil] at hy
    exact ⟨y, hy, rfl, Nat.le_refl _⟩
  · intro x _; exact Nat.zero_le _

theorem end_spec (hs : Sim f L st) {w : List Nat} {A D : Nat} {S : DSt} {xs : List (List Nat)} (hC : Cond f L st D) (h : Inv L st w A S xs) :
    next f D S EndMark = fresh f (tokens L w - A) := by
  obtain ⟨hcap, hA⟩ := inv_cap hC h
  have hlt := hC.lt
  obtain ⟨h1, h2⟩ := advance_end hs h.alive h.states
  obtain ⟨bx, hbx, hbu⟩ := h.back
  have hlc : (S.states.getLast?.map (·.count)).getD 0 = tokens L w - A := by
    rw [h.states, List.getLast?_map, hbx]
    show upTo L w bx - A = _
    rw [hbu]
  have hlast : S.last = tokens L w - A := by have := h.last; omega
  unfold next
  rw [if_pos rfl]
  rw [addState_fresh hs hC.nil]
  congr 1
  rw [hlc]
  generalize advance f S EndMark = n at h1 h2
  have hbf : backFinal f n = false := by
    unfold backFinal
    cases hg : n.states.getLast? with
    | none => rfl
    | some b => exact (h2 b (List.mem_of_getLast? hg)).1
  have hany : (n.states.any fun h => h.state == f.initial) = false := by
    rw [Bool.eq_false_iff]
    intro hx
    obtain ⟨b, hb, hb'⟩ := List.any_eq_true.1 hx
    exact (h2 b hb).2 (by simpa using hb')
  have hadd : addState f n f.initial (tokens L w - A) false true = { n with states := n.states ++ [⟨f.initial, tokens L w - A, false⟩] } := by
    unfold addState
    simp only [initial_not_final hs hC.nil, Bool.false_and, hany, Bool.false_eq_true, if_false, Bool.or_true, if_true, Bool.or_self]
  unfold finishBuild
  rw [hbf]
  simp only [Bool.false_eq_true, if_false]
  rw [hadd]
  unfold settle
  simp only
  obtain ⟨hl, hhl⟩ : ∃ hl : List Holder, hl = (n.states ++ [(⟨f.initial, tokens L w - A, false⟩ : Holder)]).map fun (h : Holder) => { h with count := min h.count D } := ⟨_, rfl⟩
  obtain ⟨a, ha⟩ : ∃ a, a = ((n.states ++ [(⟨f.initial, tokens L w - A, false⟩ : Holder)]).headD ⟨0, 0, false⟩).count := ⟨_, rfl⟩
  rw [← hhl, ← ha]
  obtain ⟨m, hm⟩ : ∃ m, m = hl.foldl (fun m h => min h.count m) a := ⟨_, rfl⟩
  have hmle : m ≤ tokens L w - A := by
    have := (foldl_min_spec hl a).1 ⟨f.initial, min (tokens L w - A) D, false⟩
      (by rw [hhl]; exact List.mem_map.2 ⟨⟨f.initial, tokens L w - A, false⟩, by simp, rfl⟩)
    rw [← hm] at this
    exact this.trans (Nat.min_le_left _ _)
  rw [← hm, h1, hlast, Nat.min_eq_left (by omega)]
  clear hm hadd hany hbf h1 h2 hlc
  omega

/-! ### Runs -/

/-- The state after a word. -/
def after (f : Fsm) (D : Nat) (w : List Nat) : DSt := w.foldl (next f D) (start f)

/-- What has been counted after a word: the counts of all the states passed, the initial one included. -/
def sumAdd (f : Fsm) (D : Nat) (w : List Nat) : Nat := (w.inits.map fun u => (after f D u).toAdd).sum

theorem after_nil (f : Fsm) (D : Nat) : after f D [] = start f := rfl
theorem after_snoc (f : Fsm) (D : Nat) (w : List Nat) (c : Nat) : after f D (w ++ [c]) = next f D (after f D w) c := by
  unfold after; rw [List.foldl_append]; rfl

theorem sumAdd_nil (f : Fsm) (D : Nat) : sumAdd f D [] = (start f).toAdd := by unfold sumAdd; simp [after_nil]
theorem sumAdd_snoc (f : Fsm) (D : Nat) (w : List Nat) (c : Nat) : sumAdd f D (w ++ [c]) = sumAdd f D w + (after f D (w ++ [c])).toAdd := by
  unfold sumAdd; rw [List.inits_append]; simp

/-- Letters of a text, end marks excluded. -/
def Plain (w : List Nat) : Prop := IsWord w ∧ EndMark ∉ w

theorem plain_snoc {w : List Nat} {c : Nat} (h : Plain (w ++ [c])) : Plain w ∧ IsLetter c ∧ c ≠ EndMark :=
  ⟨⟨fun x hx => h.1 x (List.mem_append_left _ hx), fun hx => h.2 (List.mem_append_left _ hx)⟩, h.1 c (by simp), fun e => h.2 (by simp [e])⟩

theorem plain_inv (hs : Sim f L st) {D : Nat} (hC : Cond f L st D) {w : List Nat} (hw : Plain w) :
    ∃ xs, Inv L st w (sumAdd f D w) (after f D w) xs := by
  induction w using List.reverseRecOn with
  | nil =>
    rw [sumAdd_nil, after_nil, start_eq hs hC.nil]
    exact ⟨_, fresh_inv hs 0⟩
  | append_singleton w c ih =>
    obtain ⟨h1, h2, h3⟩ := plain_snoc hw
    obtain ⟨xs, hx⟩ := ih h1
    rw [sumAdd_snoc, after_snoc]
    exact next_spec hs hC hx h2 h3

/-- Nothing is counted too early. -/
theorem sum_le (hs : Sim f L st) {D : Nat} (hC : Cond f L st D) {w : List Nat} (hw : Plain w) : sumAdd f D w ≤ tokens L w ∧ tokens L w - sumAdd f D w < D := by
  obtain ⟨xs, hx⟩ := plain_inv hs hC hw
  have := inv_cap hC hx
  exact ⟨this.2, this.1⟩

/-- At the end of the text everything is counted. -/
theorem sum_end (hs : Sim f L st) {D : Nat} (hC : Cond f L st D) {w : List Nat} (hw : Plain w) : sumAdd f D (w ++ [EndMark]) = tokens L w := by
  obtain ⟨xs, hx⟩ := plain_inv hs hC hw
  rw [sumAdd_snoc, after_snoc, end_spec hs hC hx]
  have := (inv_cap hC hx).2
  show sumAdd f D w + (tokens L w - sumAdd f D w) = _
  omega

/-- Every state that can be reached describes some text; at most `D` matches are added at once. -/
theorem reach_inv (hs : Sim f L st) {D : Nat} (hC : Cond f L st D) {u : List Nat} (hu : IsWord u) :
    (∃ w A xs, Inv L st w A (after f D u) xs) ∧ (after f D u).toAdd ≤ D := by
  induction u using List.reverseRecOn with
  | nil =>
    rw [after_nil, start_eq hs hC.nil]
    exact ⟨⟨_, _, _, fresh_inv hs 0⟩, Nat.zero_le _⟩
  | append_singleton u c ih =>
    obtain ⟨⟨w, A, xs, hx⟩, -⟩ := ih fun x hx => hu x (List.mem_append_left _ hx)
    have hcap := inv_cap hC hx
    rw [after_snoc]
    by_cases hc : c = EndMark
    · rw [hc, end_spec hs hC hx]
      refine ⟨⟨_, _, _, fresh_inv hs _⟩, ?_⟩
      show tokens L w - A ≤ D
      omega
    · obtain ⟨zs, hz⟩ := next_spec hs hC hx (hu c (by simp)) hc
      refine ⟨⟨_, _, _, hz⟩, ?_⟩
      have h1 := (inv_cap hC hz).2
      have h2 := tokens_snoc_le (L := L) w c
      omega

end Greedy
end Pire
