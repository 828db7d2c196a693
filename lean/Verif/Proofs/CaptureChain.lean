import Verif.Proofs.CaptureViable
import Verif.Spec.Prefer

/-!
# Chains of items (C60): the automaton of a sequence of items, and what it matches

`E` is the transition relation, `A` the outputs.
-/

namespace Pire
namespace Capture
open Spec

/-! ### The preferred match -/

/-- Nothing is better. -/
def Best (is : List Item) (ns v : List Nat) : Prop := Starts is ns v ∧ ∀ ms, Starts is ms v → ms ≠ ns → Better is ns ms

/-- The first item may be repeated `n` times, and the others match the rest. -/
def Cand (it : Item) (is : List Item) (n : Nat) (v : List Nat) : Prop :=
  it.allows n ∧ n ≤ v.length ∧ (∀ c ∈ v.take n, c ∈ it.bytes) ∧ ∃ ms, Starts is ms (v.drop n)

/-- The first number is preferred. -/
def Pref (it : Item) (m n : Nat) : Prop := if it.lazy then m < n else n < m

theorem pref_irrefl (it : Item) (n : Nat) : ¬ Pref it n n := by
  unfold Pref; split <;> exact Nat.lt_irrefl _

theorem starts_cons {it : Item} {is : List Item} {v : List Nat} : (∃ ms, Starts (it :: is) ms v) ↔ ∃ n, Cand it is n v := by
  constructor
  · rintro ⟨ms, h⟩
    cases ms with
    | nil => exact absurd h (by simp [Starts])
    | cons n ms => exact ⟨n, h.1, h.2.1, h.2.2.1, ms, h.2.2.2⟩
  · rintro ⟨n, h1, h2, h3, ms, h4⟩
    exact ⟨n :: ms, h1, h2, h3, h4⟩

theorem starts_nil {v : List Nat} : ∃ ms, Starts [] ms v := ⟨[], trivial⟩

theorem best_cons {it : Item} {is : List Item} {n : Nat} {ns v : List Nat} :
    Best (it :: is) (n :: ns) v ↔ Cand it is n v ∧ Best is ns (v.drop n) ∧ ∀ m, Cand it is m v → m ≠ n → Pref it n m := by
  constructor
  · rintro ⟨⟨h1, h2, h3, h4⟩, h5⟩
    refine ⟨⟨h1, h2, h3, ns, h4⟩, ⟨h4, fun ms hms hne => ?_⟩, ?_⟩
    · rcases h5 (n :: ms) ⟨h1, h2, h3, hms⟩ (by simpa using hne) with h | ⟨-, h⟩
      · exact absurd h (pref_irrefl it n)
      · exact h
    · rintro m ⟨g1, g2, g3, ms, g4⟩ hne
      rcases h5 (m :: ms) ⟨g1, g2, g3, g4⟩ (by simp [hne]) with h | ⟨h, -⟩
      · exact h
      · exact absurd h.symm hne
  · rintro ⟨⟨h1, h2, h3, -⟩, ⟨h4, h5⟩, h6⟩
    refine ⟨⟨h1, h2, h3, h4⟩, fun ms hms hne => ?_⟩
    cases ms with
    | nil => exact absurd hms (by simp [Starts])
    | cons m ms =>
      by_cases hm : m = n
      · subst hm
        exact .inr ⟨rfl, h5 ms hms.2.2.2 (by simpa using hne)⟩
      · exact .inl (h6 m ⟨hms.1, hms.2.1, hms.2.2.1, ms, hms.2.2.2⟩ hm)

theorem exists_best : ∀ (is : List Item) (v : List Nat), (∃ ms, Starts is ms v) → ∃ ns, Best is ns v := by
  intro is
  induction is with
  | nil =>
    intro v _
    refine ⟨[], trivial, fun ms hms hne => ?_⟩
    cases ms with
    | nil => exact absurd rfl hne
    | cons => exact absurd hms (by simp [Starts])
  | cons it is ih =>
    intro v h
    obtain ⟨n0, hn0⟩ := starts_cons.1 h
    classical
    obtain ⟨n, hn, hp⟩ : ∃ n, Cand it is n v ∧ ∀ m, Cand it is m v → m ≠ n → Pref it n m := by
      cases hl : it.lazy with
      | true =>
        have hex : ∃ n, Cand it is n v := ⟨n0, hn0⟩
        refine ⟨Nat.find hex, Nat.find_spec hex, fun m hm hne => ?_⟩
        unfold Pref
        rw [hl, if_pos rfl]
        have := Nat.find_min' hex hm
        omega
      | false =>
        refine ⟨Nat.findGreatest (fun n => Cand it is n v) v.length, Nat.findGreatest_spec (P := fun n => Cand it is n v) hn0.2.1 hn0, fun m hm hne => ?_⟩
        unfold Pref
        rw [hl, if_neg (by simp)]
        have := Nat.le_findGreatest (P := fun n => Cand it is n v) hm.2.1 hm
        omega
    obtain ⟨ns, hns⟩ := ih (v.drop n) hn.2.2.2
    exact ⟨n :: ns, best_cons.2 ⟨hn, hns, hp⟩⟩

/-- At least one repetition. -/
def once (it : Item) : Item := { it with lo := 1 }
/-- What is left of the item after one repetition. -/
def rest (it : Item) : Item := { it with lo := 0, hi := it.hi.map (· - 1) }

/-- The items that chains are made of. -/
def Shape (it : Item) : Prop := it.lo ≤ 1 ∧ (∀ h, it.hi = some h → h = 1) ∧ ∀ c ∈ it.bytes, c < 256

theorem best_once {it : Item} {is : List Item} {n : Nat} {ns v : List Nat} (hlo : it.lo ≤ 1) (h : Best (it :: is) ((n + 1) :: ns) v) : Best (once it :: is) ((n + 1) :: ns) v := by
  obtain ⟨⟨h1, h2, h3, h4⟩, h5, h6⟩ := best_cons.1 h
  refine best_cons.2 ⟨⟨⟨by simp [once], h1.2⟩, h2, h3, h4⟩, h5, ?_⟩
  rintro m ⟨g1, g2, g3, g4⟩ hne
  exact h6 m ⟨⟨Nat.le_trans hlo g1.1, g1.2⟩, g2, g3, g4⟩ hne

theorem cand_once {it : Item} {is : List Item} {n c : Nat} {w : List Nat} (hs : Shape it) : Cand (once it) is (n + 1) (c :: w) ↔ c ∈ it.bytes ∧ Cand (rest it) is n w := by
  unfold Cand Item.allows once rest
  simp only [List.length_cons, List.take_succ_cons, List.mem_cons, forall_eq_or_imp, List.drop_succ_cons, Option.map_eq_some_iff]
  constructor
  · rintro ⟨⟨-, h1⟩, h2, ⟨h3, h4⟩, h5⟩
    refine ⟨h3, ⟨by omega, ?_⟩, by omega, h4, h5⟩
    rintro h ⟨a, ha, rfl⟩
    have := h1 a ha
    omega
  · rintro ⟨h1, ⟨-, h2⟩, h3, h4, h5⟩
    refine ⟨⟨by omega, fun h hh => ?_⟩, by omega, ⟨h1, h4⟩, h5⟩
    have := h2 _ ⟨h, hh, rfl⟩
    have := hs.2.1 h hh
    omega

theorem best_rest {it : Item} {is : List Item} {n c : Nat} {ns w : List Nat} (hs : Shape it) (h : Best (once it :: is) ((n + 1) :: ns) (c :: w)) :
    c ∈ it.bytes ∧ Best (rest it :: is) (n :: ns) w := by
  obtain ⟨h1, h5, h6⟩ := best_cons.1 h
  obtain ⟨h1, h2⟩ := (cand_once hs).1 h1
  refine ⟨h1, best_cons.2 ⟨h2, h5, fun m hm hne => ?_⟩⟩
  have := h6 (m + 1) ((cand_once hs).2 ⟨h1, hm⟩) (by omega)
  unfold Pref at this ⊢
  have e : (once it).lazy = (rest it).lazy := rfl
  rw [e] at this
  split at this
  · rw [if_pos (by assumption)]; omega
  · rw [if_neg (by assumption)]; omega

/-! ### Chains -/

/-- An item, or one of the two marks of the group. -/
inductive Elem
  | item (it : Item)
  | opn
  | cls

/-- The items. -/
def itemsOf : List Elem → List Item
  | [] => []
  | .item it :: es => it :: itemsOf es
  | .opn :: es => itemsOf es
  | .cls :: es => itemsOf es

/-- The output on the way out of a repetition. -/
def mark (it : Item) : Nat := if it.lazy then 8 else 4

variable (E : Nat → Nat → Nat → Prop) (A : Nat → Nat → Nat) (G : Nat → Prop)

/-- All the transitions from `q`. -/
def Row (q : Nat) (R : Nat → Nat → Prop) : Prop := G q ∧ ∀ c p, E q c p ↔ R c p
/-- `q` reads a byte. -/
def ReadsOn (q : Nat) (bs : Finset Nat) (d : Nat) : Prop := Row E G q (fun c p => c ∈ bs ∧ p = d) ∧ (bs.Nonempty → A q d = 0)
/-- One epsilon, to a state not below `m`. -/
def Leads (m q r a : Nat) : Prop := m ≤ r ∧ Row E G q (fun c p => c = 257 ∧ p = r) ∧ A q r = a
/-- Two epsilons. -/
def Forks (m q a e : Nat) : Prop := m ≤ a ∧ a < e ∧ Row E G q (fun c p => c = 257 ∧ (p = a ∨ p = e)) ∧ A q a = 0 ∧ A q e = 0

/-- The way out of a repetition. -/
def Exit (P : Nat → Nat → Prop) (m : Nat) (it : Item) (e : Nat) : Prop := ∃ r, Leads E A G m e r (mark it) ∧ P (r + 1) r

/-- After a byte of the item. -/
def After (P : Nat → Nat → Prop) (it : Item) (d : Nat) : Prop :=
  match it.hi with
  | some _ => if it.lo = 0 then Exit E A G P (d + 1) it d else P (d + 1) d
  | none => ∃ a e s, Forks E A G 0 d a e ∧ a ≠ d ∧ d < e ∧ ReadsOn E A G a it.bytes s ∧ Forks E A G 0 s a e ∧ a ≠ s ∧ s < e ∧ Exit E A G P (e + 1) it e

/-- Before a byte of the item. -/
def Rd (P : Nat → Nat → Prop) (it : Item) (a : Nat) : Prop := ∃ d, ReadsOn E A G a it.bytes d ∧ After E A G P it d

/-- `p` is the beginning of a chain; the states that epsilons from `p` lead to are not below `m`. `B` is the end of chains. -/
def Ent (B : Nat → Prop) : List Elem → Nat → Nat → Prop
  | [], m, p => m ≤ p + 1 ∧ B p
  | .opn :: es, m, p => ∃ r, Leads E A G m p r 1 ∧ Ent B es (r + 1) r
  | .cls :: es, m, p => ∃ r, Leads E A G m p r 2 ∧ Ent B es (r + 1) r
  | .item it :: es, m, p => Shape it ∧
      if it.lo = 0 then ∃ a e, Forks E A G m p a e ∧ Rd E A G (Ent B es) it a ∧ Exit E A G (Ent B es) (e + 1) it e
      else Rd E A G (Ent B es) it p

variable {E : Nat → Nat → Nat → Prop} {A : Nat → Nat → Nat} {G : Nat → Prop} {B : Nat → Prop} {N : Nat}

/-! ### Runs -/

theorem run_row {q : Nat} {R : Nat → Nat → Prop} (hq : Row E G q R) (hn : q ≠ N) {w : List Nat} (hw : ∀ c ∈ w, c < 256) :
    Run E q w N ↔ (∃ p, R 257 p ∧ Run E p w N) ∨ ∃ c w' p, w = c :: w' ∧ R c p ∧ Run E p w' N := by
  constructor
  · intro h
    cases h with
    | refl => exact absurd rfl hn
    | eps he h => exact .inl ⟨_, (hq.2 _ _).1 he, h⟩
    | step _ he h => exact .inr ⟨_, _, _, rfl, (hq.2 _ _).1 he, h⟩
  · rintro (⟨p, h1, h2⟩ | ⟨c, w', p, rfl, h1, h2⟩)
    · exact .eps ((hq.2 _ _).2 h1) h2
    · have := hw c (by simp)
      exact .step (by omega) ((hq.2 _ _).2 h1) h2

/-- The rows of a chain do not contain 258. -/
theorem row_ne {q : Nat} {R : Nat → Nat → Prop} (hq : Row E G q R) (hlast : ∀ c, c = 258 → E N c N) (hR : ∀ p, ¬ R 258 p) : q ≠ N := by
  rintro rfl
  exact hR _ ((hq.2 _ _).1 (hlast 258 rfl))

theorem leads_ne {m q r a : Nat} (h : Leads E A G m q r a) (hlast : ∀ c, c = 258 → E N c N) : q ≠ N := row_ne h.2.1 hlast fun p hp => by simp at hp
theorem forks_ne {m q a e : Nat} (h : Forks E A G m q a e) (hlast : ∀ c, c = 258 → E N c N) : q ≠ N := row_ne h.2.2.1 hlast fun p hp => by simp at hp
theorem reads_ne {q d : Nat} {bs : Finset Nat} (h : ReadsOn E A G q bs d) (hb : ∀ c ∈ bs, c < 256) (hlast : ∀ c, c = 258 → E N c N) : q ≠ N := row_ne h.1 hlast fun p hp => by
  have := hb _ hp.1; omega

theorem leads_run {m q r a : Nat} (h : Leads E A G m q r a) (hlast : ∀ c, c = 258 → E N c N) {w : List Nat} (hw : ∀ c ∈ w, c < 256) : Run E q w N ↔ Run E r w N := by
  rw [run_row h.2.1 (leads_ne h hlast) hw]
  constructor
  · rintro (⟨p, ⟨-, rfl⟩, h2⟩ | ⟨c, w', p, rfl, ⟨rfl, -⟩, -⟩)
    · exact h2
    · have := hw 257 (by simp); omega
  · exact fun h => .inl ⟨r, ⟨rfl, rfl⟩, h⟩

theorem forks_run {m q a e : Nat} (h : Forks E A G m q a e) (hlast : ∀ c, c = 258 → E N c N) {w : List Nat} (hw : ∀ c ∈ w, c < 256) :
    Run E q w N ↔ Run E a w N ∨ Run E e w N := by
  rw [run_row h.2.2.1 (forks_ne h hlast) hw]
  constructor
  · rintro (⟨p, ⟨-, rfl | rfl⟩, h2⟩ | ⟨c, w', p, rfl, ⟨rfl, -⟩, -⟩)
    · exact .inl h2
    · exact .inr h2
    · have := hw 257 (by simp); omega
  · rintro (h | h)
    · exact .inl ⟨a, ⟨rfl, .inl rfl⟩, h⟩
    · exact .inl ⟨e, ⟨rfl, .inr rfl⟩, h⟩

theorem reads_run {q d : Nat} {bs : Finset Nat} (h : ReadsOn E A G q bs d) (hb : ∀ c ∈ bs, c < 256) (hlast : ∀ c, c = 258 → E N c N) {w : List Nat} (hw : ∀ c ∈ w, c < 256) :
    Run E q w N ↔ ∃ c w', w = c :: w' ∧ c ∈ bs ∧ Run E d w' N := by
  rw [run_row h.1 (reads_ne h hb hlast) hw]
  constructor
  · rintro (⟨p, ⟨h1, -⟩, -⟩ | ⟨c, w', p, rfl, ⟨h1, rfl⟩, h2⟩)
    · have := hb _ h1; omega
    · exact ⟨c, w', rfl, h1, h2⟩
  · rintro ⟨c, w', rfl, h1, h2⟩
    exact .inr ⟨c, w', d, rfl, ⟨h1, rfl⟩, h2⟩

variable {P : Nat → Nat → Prop} {is : List Item}

theorem cand_zero {it : Item} {v : List Nat} (h : it.lo = 0) : Cand it is 0 v ↔ ∃ ms, Starts is ms v := by
  unfold Cand Item.allows
  simp [h]

theorem cand_rest_some {it : Item} {n h : Nat} {v : List Nat} (hs : Shape it) (hh : it.hi = some h) (hc : Cand (rest it) is n v) : n = 0 := by
  have h1 := hc.1.2 (h - 1) (by simp [rest, hh])
  have := hs.2.1 h hh
  omega

/-- What is matched after a byte of the item. -/
theorem after_run {it : Item} {d : Nat} (hs : Shape it) (hlast : ∀ c, c = 258 → E N c N)
    (hP : ∀ m p, P m p → ∀ w : List Nat, (∀ c ∈ w, c < 256) → (Run E p w N ↔ ∃ ms, Starts is ms w)) (h : After E A G P it d) {w : List Nat} (hw : ∀ c ∈ w, c < 256) :
    Run E d w N ↔ ∃ n, Cand (rest it) is n w := by
  unfold After at h
  cases hh : it.hi with
  | some k =>
    have hz : (∃ n, Cand (rest it) is n w) ↔ ∃ ms, Starts is ms w := by
      constructor
      · rintro ⟨n, hc⟩
        obtain rfl := cand_rest_some hs hh hc
        exact (cand_zero rfl).1 hc
      · exact fun h => ⟨0, (cand_zero rfl).2 h⟩
    rw [hz]
    rw [hh] at h
    dsimp only at h
    split at h
    · obtain ⟨r, h1, h2⟩ := h
      rw [leads_run h1 hlast hw, hP _ _ h2 w hw]
    · exact hP _ _ h w hw
  | none =>
    rw [hh] at h
    obtain ⟨a, e, s, f1, -, -, r1, f2, -, -, r, h1, h2⟩ := h
    have hr : rest it = { it with lo := 0 } := by unfold rest; rw [hh]; rfl
    have key : ∀ k (w : List Nat), w.length ≤ k → (∀ c ∈ w, c < 256) → ((Run E a w N ∨ Run E e w N) ↔ ∃ n, Cand (rest it) is n w) := by
      intro k
      induction k with
      | zero =>
        intro w hl hw
        have : w = [] := List.eq_nil_of_length_eq_zero (by omega)
        subst this
        rw [leads_run h1 hlast hw, hP _ _ h2 _ hw, reads_run r1 hs.2.2 hlast hw]
        constructor
        · rintro (⟨_, _, h, -⟩ | h)
          · cases h
          · exact ⟨0, (cand_zero rfl).2 h⟩
        · rintro ⟨n, hc⟩
          have : n = 0 := by have := hc.2.1; simpa using this
          subst this
          exact .inr ((cand_zero rfl).1 hc)
      | succ k ih =>
        intro w hl hw
        rw [leads_run h1 hlast hw, hP _ _ h2 _ hw, reads_run r1 hs.2.2 hlast hw]
        have hsr : Shape (rest it) := ⟨by simp [rest], fun h hh' => by simp [rest, hh] at hh', hs.2.2⟩
        have e1 : ∀ n c (w : List Nat), Cand (rest it) is (n + 1) (c :: w) ↔ c ∈ it.bytes ∧ Cand (rest it) is n w := by
          intro n c w
          have e1 : rest (rest it) = rest it := by unfold rest; rw [hh]; rfl
          have e2 := cand_once (is := is) (n := n) (c := c) (w := w) hsr
          rw [e1] at e2
          rw [show it.bytes = (rest it).bytes from rfl, ← e2]
          unfold Cand Item.allows once
          simp [rest, hh]
        constructor
        · rintro (⟨c, w', rfl, hc, hr⟩ | h)
          · rw [forks_run f2 hlast (fun x hx => hw x (by simp [hx]))] at hr
            obtain ⟨n, hn⟩ := (ih w' (by simpa using hl) (fun x hx => hw x (by simp [hx]))).1 hr
            exact ⟨n + 1, (e1 n c w').2 ⟨hc, hn⟩⟩
          · exact ⟨0, (cand_zero rfl).2 h⟩
        · rintro ⟨n, hn⟩
          cases n with
          | zero => exact .inr ((cand_zero rfl).1 hn)
          | succ n =>
            cases w with
            | nil => have := hn.2.1; simp at this
            | cons c w =>
              obtain ⟨hc, hn⟩ := (e1 n c w).1 hn
              refine .inl ⟨c, w, rfl, hc, ?_⟩
              rw [forks_run f2 hlast (fun x hx => hw x (by simp [hx]))]
              exact (ih w (by simpa using hl) (fun x hx => hw x (by simp [hx]))).2 ⟨n, hn⟩
    rw [forks_run f1 hlast hw]
    exact key _ w le_rfl hw

/-- What is matched before a byte of the item. -/
theorem rd_run {it : Item} {a : Nat} (hs : Shape it) (hlast : ∀ c, c = 258 → E N c N)
    (hP : ∀ m p, P m p → ∀ w : List Nat, (∀ c ∈ w, c < 256) → (Run E p w N ↔ ∃ ms, Starts is ms w)) (h : Rd E A G P it a) {w : List Nat} (hw : ∀ c ∈ w, c < 256) :
    Run E a w N ↔ ∃ n, Cand (once it) is n w := by
  obtain ⟨d, h1, h2⟩ := h
  rw [reads_run h1 hs.2.2 hlast hw]
  constructor
  · rintro ⟨c, w', rfl, hc, hr⟩
    obtain ⟨n, hn⟩ := (after_run hs hlast hP h2 (fun x hx => hw x (by simp [hx]))).1 hr
    exact ⟨n + 1, (cand_once hs).2 ⟨hc, hn⟩⟩
  · rintro ⟨n, hn⟩
    have : 1 ≤ n := hn.1.1
    obtain ⟨n, rfl⟩ := Nat.exists_eq_add_of_le' this
    cases w with
    | nil => have := hn.2.1; simp at this
    | cons c w =>
      obtain ⟨hc, hn⟩ := (cand_once hs).1 hn
      exact ⟨c, w, rfl, hc, (after_run hs hlast hP h2 (fun x hx => hw x (by simp [hx]))).2 ⟨n, hn⟩⟩

/-- What a chain matches. -/
theorem ent_run (hlast : ∀ c, c = 258 → E N c N) (hB : ∀ p, B p → ∀ w : List Nat, (∀ c ∈ w, c < 256) → Run E p w N) : ∀ (es : List Elem) (m p : Nat), Ent E A G B es m p →
    ∀ w : List Nat, (∀ c ∈ w, c < 256) → (Run E p w N ↔ ∃ ms, Starts (itemsOf es) ms w) := by
  intro es
  induction es with
  | nil =>
    intro m p h w hw
    exact ⟨fun _ => starts_nil, fun _ => hB p h.2 w hw⟩
  | cons x es ih =>
    intro m p h w hw
    cases x with
    | opn =>
      obtain ⟨r, h1, h2⟩ := h
      rw [leads_run h1 hlast hw]
      exact ih _ _ h2 w hw
    | cls =>
      obtain ⟨r, h1, h2⟩ := h
      rw [leads_run h1 hlast hw]
      exact ih _ _ h2 w hw
    | item it =>
      obtain ⟨hs, h⟩ := h
      show _ ↔ ∃ ms, Starts (it :: itemsOf es) ms w
      rw [starts_cons]
      split at h
      · rename_i h0
        obtain ⟨a, e, f, h1, r, h2, h3⟩ := h
        rw [forks_run f hlast hw, rd_run hs hlast ih h1 hw, leads_run h2 hlast hw, ih _ _ h3 w hw]
        constructor
        · rintro (⟨n, h1, h2⟩ | h)
          · exact ⟨n, ⟨by omega, h1.2⟩, h2⟩
          · exact ⟨0, (cand_zero h0).2 h⟩
        · rintro ⟨n, hn⟩
          cases n with
          | zero => exact .inr ((cand_zero h0).1 hn)
          | succ n => exact .inl ⟨n + 1, ⟨by simp [once], hn.1.2⟩, hn.2⟩
      · rename_i h0
        rw [rd_run hs hlast ih h hw]
        have : once it = it := by
          have := hs.1
          unfold once
          rw [← show it.lo = 1 by omega]
        rw [this]

end Capture
end Pire
