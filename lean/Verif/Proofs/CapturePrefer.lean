import Verif.Proofs.CaptureChain

/-!
# The exploration of a chain (C60): the first thread that can still match is that of the preferred match
-/

namespace Pire
namespace Capture
open Spec

variable {t : Table} {n : Nat} {J : Nat → Nat → List (Nat × Nat)} {F : Nat → Bool} {E : Nat → Nat → Nat → Prop} {A : Nat → Nat → Nat} {G : Nat → Prop} {B : Nat → Prop}
  {L N ini : Nat} {w : List Nat}

/-! ### The exploration -/

/-- No groups. -/
def noGroups : Groups := ⟨[], [], []⟩

/-- The groups with one more thread. -/
def Groups.push (g : Groups) (s : Single) : Groups := { g with nothing := g.nothing ++ [s] }

theorem insert_none (g : Groups) (a : Nat) : g.insert noGroups a = g := by
  unfold Groups.insert noGroups
  split
  · simp
  · split <;> simp

theorem insert_zero (g h : Groups) : g.insert h 0 = ⟨g.nonGreedy ++ h.nonGreedy, g.nothing ++ h.nothing, g.greedy ++ h.greedy⟩ := by
  unfold Groups.insert
  simp

theorem none_insert {a : Nat} (h8 : a &&& 8 = 0) (h4 : a &&& 4 = 0) (h : Groups) : noGroups.insert h a = h := by
  unfold Groups.insert noGroups
  rw [if_neg (by simp [h8]), if_pos h4]
  simp

/-- One group gets everything. -/
def put (lazy : Bool) (l : List Single) : Groups := if lazy then ⟨l, [], []⟩ else ⟨[], [], l⟩

theorem none_insert_mark (it : Item) (h : Groups) : noGroups.insert h (mark it) = put it.lazy h.all := by
  unfold Groups.insert noGroups mark put Groups.all
  cases it.lazy <;> simp

/-- What a transition to the thread `s` brings. -/
def Visit (t : Table) (pos : Nat) (used : Nat → Bool) (s : Single) (r : Groups × (Nat → Bool)) : Prop :=
  (used s.num = true ∧ r = (noGroups, used)) ∨
  (used s.num = false ∧ ∃ fuel r1, t.explore fuel (noGroups, Function.update used s.num true) s 257 pos = some r1 ∧ r = (r1.1.push s, r1.2))

theorem visit_step {fuel pos : Nat} {acc r : Groups × (Nat → Bool)} {cur : Single} {tr : Nat × Nat}
    (h : (if tr.1 < t.statesCount then
        if acc.2 tr.1 then some acc
        else
          (Table.explore t fuel (⟨[], [], []⟩, Function.update acc.2 tr.1 true) (advance cur pos tr) Epsilon pos).map fun r =>
            (acc.1.insert { r.1 with nothing := r.1.nothing ++ [advance cur pos tr] } tr.2, r.2)
      else none) = some r) : ∃ r1, Visit t pos acc.2 (advance cur pos tr) r1 ∧ r = (acc.1.insert r1.1 tr.2, r1.2) := by
  split at h
  · cases hu : acc.2 tr.1 with
    | true =>
      rw [hu, if_pos rfl] at h
      injection h with h
      subst h
      exact ⟨(noGroups, acc.2), .inl ⟨by rw [advance_num]; exact hu, rfl⟩, by rw [insert_none]⟩
    | false =>
      rw [hu, if_neg (by simp)] at h
      rw [Option.map_eq_some_iff] at h
      obtain ⟨r1, h1, rfl⟩ := h
      refine ⟨(r1.1.push (advance cur pos tr), r1.2), .inr ⟨by rw [advance_num]; exact hu, fuel, r1, ?_, rfl⟩, rfl⟩
      rw [advance_num]
      exact h1
  · cases h

theorem explore_nil (h : TRepr t n J F) {fuel pos c : Nat} {acc r : Groups × (Nat → Bool)} {cur : Single} (hq : cur.num < n) (hc : c < 264) (hJ : J cur.num c = [])
    (hx : t.explore fuel acc cur c pos = some r) : r = acc := by
  cases fuel with
  | zero => cases hx
  | succ fuel =>
    unfold Table.explore at hx
    rw [h.next _ hq _ hc, Option.bind_some, hJ] at hx
    injection hx with hx
    exact hx.symm

theorem explore_one (h : TRepr t n J F) {fuel pos c : Nat} {acc r : Groups × (Nat → Bool)} {cur : Single} {tr : Nat × Nat} (hq : cur.num < n) (hc : c < 264) (hJ : J cur.num c = [tr])
    (hx : t.explore fuel acc cur c pos = some r) : ∃ r1, Visit t pos acc.2 (advance cur pos tr) r1 ∧ r = (acc.1.insert r1.1 tr.2, r1.2) := by
  cases fuel with
  | zero => cases hx
  | succ fuel =>
    unfold Table.explore at hx
    rw [h.next _ hq _ hc, Option.bind_some, hJ, List.foldlM_cons, Option.bind_eq_bind, Option.bind_eq_some_iff] at hx
    obtain ⟨r', h1, h2⟩ := hx
    injection h2 with h2
    subst h2
    exact visit_step h1

theorem explore_two (h : TRepr t n J F) {fuel pos c : Nat} {acc r : Groups × (Nat → Bool)} {cur : Single} {tr tr' : Nat × Nat} (hq : cur.num < n) (hc : c < 264)
    (hJ : J cur.num c = [tr, tr']) (hx : t.explore fuel acc cur c pos = some r) : ∃ r1 r2, Visit t pos acc.2 (advance cur pos tr) r1 ∧ Visit t pos r1.2 (advance cur pos tr') r2 ∧
      r = ((acc.1.insert r1.1 tr.2).insert r2.1 tr'.2, r2.2) := by
  cases fuel with
  | zero => cases hx
  | succ fuel =>
    unfold Table.explore at hx
    rw [h.next _ hq _ hc, Option.bind_some, hJ, List.foldlM_cons, Option.bind_eq_bind, Option.bind_eq_some_iff] at hx
    obtain ⟨r', h1, h2⟩ := hx
    rw [List.foldlM_cons, Option.bind_eq_bind, Option.bind_eq_some_iff] at h2
    obtain ⟨r'', h2, h3⟩ := h2
    injection h3 with h3
    subst h3
    obtain ⟨r1, v1, rfl⟩ := visit_step h1
    obtain ⟨r2, v2, rfl⟩ := visit_step h2
    exact ⟨r1, r2, v1, v2, rfl⟩

theorem mem_insert {g i : Groups} {a : Nat} {z : Single} (h : z ∈ (g.insert i a).all) : z ∈ g.all ∨ z ∈ i.all := by
  have := (Groups.all_insert g i a).mem_iff.1 h
  exact List.mem_append.1 this

theorem mem_push {g : Groups} {s z : Single} (h : z ∈ (g.push s).all) : z ∈ g.all ∨ z = s := by
  have := (Groups.all_push g s).mem_iff.1 h
  simpa using this

/-- Everything comes from the thread. -/
theorem explore_path (h : TRepr t n J F) (pos : Nat) : ∀ (fuel : Nat) (acc r : Groups × (Nat → Bool)) (cur : Single) (c : Nat), cur.num < n → c < 264 →
    t.explore fuel acc cur c pos = some r → ∀ z ∈ r.1.all, z ∈ acc.1.all ∨ Path J pos cur c z := by
  intro fuel
  induction fuel with
  | zero => intro acc r cur c _ _ hx; cases hx
  | succ fuel ih =>
    intro acc r cur c hq hc hx
    unfold Table.explore at hx
    rw [h.next _ hq _ hc, Option.bind_some] at hx
    have key : ∀ (trs : List (Nat × Nat)), (∀ tr ∈ trs, tr ∈ J cur.num c) → ∀ acc : Groups × (Nat → Bool), trs.foldlM (fun acc tr =>
          if tr.1 < t.statesCount then
            if acc.2 tr.1 then some acc
            else
              (Table.explore t fuel (⟨[], [], []⟩, Function.update acc.2 tr.1 true) (advance cur pos tr) Epsilon pos).map fun r =>
                (acc.1.insert { r.1 with nothing := r.1.nothing ++ [advance cur pos tr] } tr.2, r.2)
          else none) acc = some r → ∀ z ∈ r.1.all, z ∈ acc.1.all ∨ Path J pos cur c z := by
      intro trs
      induction trs with
      | nil =>
        intro _ acc hx z hz
        injection hx with hx
        subst hx
        exact .inl hz
      | cons tr trs ihl =>
        intro hm acc hx z hz
        have htr := hm tr (by simp)
        rw [List.foldlM_cons, Option.bind_eq_bind, Option.bind_eq_some_iff] at hx
        obtain ⟨r', h1, h2⟩ := hx
        rcases ihl (fun x hx => hm x (by simp [hx])) r' h2 z hz with hz | hz
        · split at h1
          · split at h1
            · injection h1 with h1
              subst h1
              exact .inl hz
            · rw [Option.map_eq_some_iff] at h1
              obtain ⟨r1, h1, rfl⟩ := h1
              rcases mem_insert hz with hz | hz
              · exact .inl hz
              · rcases mem_push (g := r1.1) hz with hz | rfl
                · rcases ih _ _ _ 257 (by rw [advance_num]; exact h.lt _ hq _ hc _ htr) (by omega) h1 z hz with hz | hz
                  · simp [Groups.all] at hz
                  · exact .inr (.cons htr hz)
                · exact .inr (.one htr)
          · cases h1
        · exact .inr hz
    exact key _ (fun tr h => h) acc hx

theorem visit_run (hE : Edges n J E A) (h : TRepr t n J F) (hw : ∀ c ∈ w, c < 256) {pos : Nat} {used : Nat → Bool} {s z : Single} {r : Groups × (Nat → Bool)} (hs : s.num < n)
    (hv : Visit t pos used s r) (hz : z ∈ r.1.all) (hV : Via E N w z.num) : Run E s.num w N := by
  rcases hv with ⟨-, rfl⟩ | ⟨-, fuel, r1, h1, rfl⟩
  · simp [noGroups, Groups.all] at hz
  · rcases mem_push hz with hz | rfl
    · rcases explore_path h pos _ _ _ _ 257 hs (by omega) h1 z hz with hz | hz
      · simp [noGroups, Groups.all] at hz
      · obtain ⟨-, d, h2, h3⟩ := path_edge hE h hs (by omega) hz
        exact .eps h2 (via_run hw h3 hV)
    · exact via_run hw (.refl _) hV

/-! ### The lists of transitions -/

/-- The transitions are in the order of the states. -/
def Sorted (n : Nat) (J : Nat → Nat → List (Nat × Nat)) : Prop := ∀ q < n, ∀ c < 264, (J q c).Pairwise fun x y => x.1 < y.1

theorem sorted_nil {l : List (Nat × Nat)} (h : ∀ x, ¬ x ∈ l) : l = [] := List.eq_nil_iff_forall_not_mem.2 h

theorem sorted_one {l : List (Nat × Nat)} {x : Nat × Nat} (hs : l.Pairwise fun x y => x.1 < y.1) (h : ∀ y, y ∈ l ↔ y = x) : l = [x] := by
  cases l with
  | nil => exact absurd ((h x).2 rfl) (by simp)
  | cons a l =>
    obtain rfl := (h a).1 (by simp)
    cases l with
    | nil => rfl
    | cons b l =>
      obtain rfl := (h b).1 (by simp)
      have := (List.pairwise_cons.1 hs).1 b (by simp)
      omega

theorem sorted_two {l : List (Nat × Nat)} {x y : Nat × Nat} (hs : l.Pairwise fun x y => x.1 < y.1) (hxy : x.1 < y.1) (h : ∀ z, z ∈ l ↔ z = x ∨ z = y) : l = [x, y] := by
  cases l with
  | nil => exact absurd ((h x).2 (.inl rfl)) (by simp)
  | cons a l =>
    have hs' := List.pairwise_cons.1 hs
    have hax : a = x := by
      rcases (h a).1 (by simp) with rfl | rfl
      · rfl
      · rcases List.mem_cons.1 ((h x).2 (.inl rfl)) with rfl | h1
        · omega
        · have := hs'.1 _ h1; omega
    subst hax
    rw [sorted_one (x := y) hs'.2]
    intro z
    constructor
    · intro hz
      rcases (h z).1 (by simp [hz]) with rfl | rfl
      · have := hs'.1 _ hz; omega
      · rfl
    · rintro rfl
      rcases List.mem_cons.1 ((h z).2 (.inr rfl)) with rfl | h1
      · omega
      · exact h1

section Lists

theorem leads_list (hE : Edges n J E A) (hJ : Sorted n J) {m q r a : Nat} (h : Leads E A G m q r a) : q < n ∧ J q 257 = [(r, a)] := by
  have hq : q < n := hE.lt q 257 r ((h.2.1.2 _ _).2 ⟨rfl, rfl⟩)
  refine ⟨hq, sorted_one (hJ q hq 257 (by omega)) fun y => ?_⟩
  rw [hE.mem q hq 257 (by omega), h.2.1.2]
  constructor
  · rintro ⟨⟨-, h1⟩, h2⟩
    rw [h1, h.2.2] at h2
    exact Prod.ext h1 h2
  · rintro rfl
    exact ⟨⟨rfl, rfl⟩, h.2.2.symm⟩

theorem forks_list (hE : Edges n J E A) (hJ : Sorted n J) {m q a e : Nat} (h : Forks E A G m q a e) : q < n ∧ J q 257 = [(a, 0), (e, 0)] := by
  have hq : q < n := hE.lt q 257 a ((h.2.2.1.2 _ _).2 ⟨rfl, .inl rfl⟩)
  refine ⟨hq, sorted_two (hJ q hq 257 (by omega)) h.2.1 fun y => ?_⟩
  rw [hE.mem q hq 257 (by omega), h.2.2.1.2]
  constructor
  · rintro ⟨⟨-, h1 | h1⟩, h2⟩
    · rw [h1, h.2.2.2.1] at h2
      exact .inl (Prod.ext h1 h2)
    · rw [h1, h.2.2.2.2] at h2
      exact .inr (Prod.ext h1 h2)
  · rintro (rfl | rfl)
    · exact ⟨⟨rfl, .inl rfl⟩, h.2.2.2.1.symm⟩
    · exact ⟨⟨rfl, .inr rfl⟩, h.2.2.2.2.symm⟩

theorem reads_quiet (hE : Edges n J E A) {q d : Nat} {bs : Finset Nat} (h : ReadsOn E A G q bs d) (hb : ∀ c ∈ bs, c < 256) (hq : q < n) : J q 257 = [] := by
  refine sorted_nil fun x hx => ?_
  have := ((h.1.2 _ _).1 ((hE.mem q hq 257 (by omega) x).1 hx).1).1
  have := hb _ this
  omega

theorem reads_list (hE : Edges n J E A) (hJ : Sorted n J) {q d c : Nat} {bs : Finset Nat} (h : ReadsOn E A G q bs d) (hc : c ∈ bs) (hc' : c < 256) : q < n ∧ J q c = [(d, 0)] := by
  have hq : q < n := hE.lt q c d ((h.1.2 _ _).2 ⟨hc, rfl⟩)
  refine ⟨hq, sorted_one (hJ q hq c (by omega)) fun y => ?_⟩
  rw [hE.mem q hq c (by omega), h.1.2]
  constructor
  · rintro ⟨⟨-, h1⟩, h2⟩
    rw [h1, h.2 ⟨c, hc⟩] at h2
    exact Prod.ext h1 h2
  · rintro rfl
    exact ⟨⟨hc, rfl⟩, (h.2 ⟨c, hc⟩).symm⟩

end Lists

/-! ### Positions -/

/-- What the begin will be. -/
def begAt (b : Nat) : List Elem → List Nat → Nat → Nat
  | [], _, _ => b
  | .opn :: es, ns, pos => begAt (if b = npos then pos else b) es ns pos
  | .cls :: es, ns, pos => begAt b es ns pos
  | .item _ :: es, ns, pos => begAt b es ns.tail (pos + ns.headD 0)
/-- What the end will be. -/
def finAt (b : Nat) : List Elem → List Nat → Nat → Nat
  | [], _, _ => b
  | .opn :: es, ns, pos => finAt b es ns pos
  | .cls :: es, ns, pos => finAt (if b = npos then pos else b) es ns pos
  | .item _ :: es, ns, pos => finAt b es ns.tail (pos + ns.headD 0)

theorem advance_quiet {a : Nat} (h1 : a &&& 1 = 0) (h2 : a &&& 2 = 0) (x : Single) (pos q : Nat) : advance x pos (q, a) = ⟨q, x.beg, x.fin⟩ := by
  unfold advance Single.setBegin Single.setEnd Single.mk0
  simp [h1, h2]

theorem advance_opn (x : Single) (pos q : Nat) : advance x pos (q, 1) = ⟨q, if x.beg = npos then pos else x.beg, x.fin⟩ := by
  unfold advance Single.setBegin Single.setEnd Single.mk0
  by_cases h : x.beg = npos <;> simp [h]

theorem advance_cls (x : Single) (pos q : Nat) : advance x pos (q, 2) = ⟨q, x.beg, if x.fin = npos then pos else x.fin⟩ := by
  unfold advance Single.setBegin Single.setEnd Single.mk0
  by_cases h : x.fin = npos <;> simp [h]

theorem advance_mark (it : Item) (x : Single) (pos q : Nat) : advance x pos (q, mark it) = ⟨q, x.beg, x.fin⟩ := by
  unfold mark
  split <;> exact advance_quiet rfl rfl x pos q

/-! ### Where the thread of the preferred match stands -/

/-- Before a byte of an item, or at the end. -/
def Stand (E : Nat → Nat → Nat → Prop) (A : Nat → Nat → Nat) (G : Nat → Prop) (B : Nat → Prop) (N b f pos : Nat) (w : List Nat) (y : Single) : Prop :=
  (y.num = N ∧ y.beg = b ∧ y.fin = f) ∨
  ∃ it es k ns, Shape it ∧ Rd E A G (Ent E A G B es) it y.num ∧ Best (once it :: itemsOf es) ((k + 1) :: ns) w ∧
    begAt y.beg (.item it :: es) ((k + 1) :: ns) pos = b ∧ finAt y.fin (.item it :: es) ((k + 1) :: ns) pos = f

/-- The used states not below `m` cannot match; `L` and `d` do not count. -/
def Above (E : Nat → Nat → Nat → Prop) (N L m d : Nat) (w : List Nat) (used : Nat → Bool) : Prop := ∀ q, q ≠ L → q ≠ d → m ≤ q → used q = true → ¬ Run E q w N

/-- What is known about the automaton around the chain. -/
structure Chained (n : Nat) (J : Nat → Nat → List (Nat × Nat)) (E : Nat → Nat → Nat → Prop) (A : Nat → Nat → Nat) (G B : Nat → Prop) (L N : Nat) : Prop where
  edges : Edges n J E A
  sorted : Sorted n J
  last : ∀ c < 264, E N c N
  last_only : ∀ c p, E N c p → p = N
  last_out : A N N = 0
  last_lt : N < n
  last_ne : N ≠ L
  into : ∀ q c, E q c L → q = L
  ends : ∀ p, B p → Leads E A G (p + 1) p N 0

theorem Chained.beg (h : Chained n J E A G B L N) : ∀ c, c = 258 → E N c N := fun c hc => h.last c (by omega)

theorem Chained.loops (h : Chained n J E A G B L N) (w : List Nat) (hw : ∀ c ∈ w, c < 256) : Run E N w N := by
  induction w with
  | nil => exact .refl _
  | cons c w ih =>
    have := hw c (by simp)
    exact .step (by omega) (h.last c (by omega)) (ih fun x hx => hw x (by simp [hx]))

theorem Chained.viaLast (h : Chained n J E A G B L N) (hw : ∀ c ∈ w, c < 256) : Via E N w N := by
  cases w with
  | nil => exact rfl
  | cons c w =>
    have := hw c (by simp)
    exact ⟨N, h.last c (by omega), h.loops w fun x hx => hw x (by simp [hx])⟩

theorem Chained.run (h : Chained n J E A G B L N) (es : List Elem) (m p : Nat) (he : Ent E A G B es m p) (w : List Nat) (hw : ∀ c ∈ w, c < 256) :
    Run E p w N ↔ ∃ ms, Starts (itemsOf es) ms w :=
  ent_run h.beg (fun p hp w hw => (leads_run (h.ends p hp) h.beg hw).2 (h.loops w hw)) es m p he w hw

theorem Chained.list (h : Chained n J E A G B L N) (c : Nat) (hc : c < 264) : J N c = [(N, 0)] := by
  refine sorted_one (h.sorted N h.last_lt c hc) fun y => ?_
  rw [h.edges.mem N h.last_lt c hc]
  constructor
  · rintro ⟨h1, h2⟩
    have h1 := h.last_only _ _ h1
    rw [h1, h.last_out] at h2
    exact Prod.ext h1 h2
  · rintro rfl
    exact ⟨h.last c hc, h.last_out.symm⟩

/-- A state with only epsilons. -/
theorem eps_not_via (h : Chained n J E A G B L N) {q : Nat} {R : Nat → Nat → Prop} (hq : Row E G q R) (hR : ∀ c p, R c p → c = 257) (hw : ∀ c ∈ w, c < 256) : ¬ Via E N w q := by
  intro hv
  have hne : q ≠ N := row_ne hq h.beg fun p hp => by have := hR _ _ hp; omega
  cases w with
  | nil => exact hne hv
  | cons c w =>
    obtain ⟨d, h1, -⟩ := hv
    have := hR _ _ ((hq.2 _ _).1 h1)
    have := hw c (by simp)
    omega

/-- A state without epsilons. -/
theorem reads_via (h : Chained n J E A G B L N) {q d : Nat} {bs : Finset Nat} (hq : ReadsOn E A G q bs d) (hb : ∀ c ∈ bs, c < 256) (hw : ∀ c ∈ w, c < 256) :
    Run E q w N ↔ Via E N w q := by
  rw [reads_run hq hb h.beg hw]
  have hne := reads_ne hq hb h.beg
  cases w with
  | nil =>
    constructor
    · rintro ⟨_, _, h, -⟩; cases h
    · intro h; exact absurd h hne
  | cons c w =>
    constructor
    · rintro ⟨c', w', e, h1, h2⟩
      injection e with e1 e2
      subst e1 e2
      exact ⟨d, (hq.1.2 _ _).2 ⟨h1, rfl⟩, h2⟩
    · rintro ⟨d', h1, h2⟩
      obtain ⟨h1, rfl⟩ := (hq.1.2 _ _).1 h1
      exact ⟨c, w, rfl, h1, h2⟩

/-- The end of a chain, or any other state from which only the last one is reached. -/
theorem visit_last (h : Chained n J E A G B L N) (hT : TRepr t n J F) (hw : ∀ c ∈ w, c < 256) {pos : Nat} {used : Nat → Bool} {s : Single} {r : Groups × (Nat → Bool)}
    (hs : s.num = N) (hu : used N = true → ¬ Run E N w N) (hv : Visit t pos used s r) : r.1 = ⟨[], [s], []⟩ := by
  rcases hv with ⟨h1, -⟩ | ⟨-, fuel, r1, h1, rfl⟩
  · rw [hs] at h1
    exact absurd (h.loops w hw) (hu h1)
  · obtain ⟨r2, h2, rfl⟩ := explore_one hT (by rw [hs]; exact h.last_lt) (by omega) (by rw [hs]; exact h.list 257 (by omega)) h1
    rw [advance_quiet rfl rfl] at h2
    rcases h2 with ⟨-, rfl⟩ | ⟨h2, -⟩
    · show (noGroups.insert noGroups 0).push s = _
      rw [insert_none]; rfl
    · simp [hs] at h2

theorem First.head {V : Nat → Prop} {y : Single} (h : V y.num) (l : List Single) : First V (y :: l) y := ⟨[], l, rfl, h, by simp⟩

/-- The statement about a chain. -/
def Picks (t : Table) (E : Nat → Nat → Nat → Prop) (A : Nat → Nat → Nat) (G B : Nat → Prop) (L N : Nat) (es : List Elem) : Prop :=
  ∀ m p, Ent E A G B es m p → p < m → p ≠ L → ∀ (w : List Nat), (∀ c ∈ w, c < 256) → ∀ (used : Nat → Bool) (x : Single) (ns : List Nat) (pos fuel : Nat) (r : Groups × (Nat → Bool)),
    x.num = p → Above E N L m p w used → Best (itemsOf es) ns w → t.explore fuel (noGroups, used) x 257 pos = some r →
    ∃ y, First (Via E N w) (r.1.push x).all y ∧ Stand E A G B N (begAt x.beg es ns pos) (finAt x.fin es ns pos) pos w y

/-- A thread that cannot match may be anywhere. -/
theorem First.push {V : Nat → Prop} {g : Groups} {y x : Single} (h : First V g.all y) (hx : ¬ V x.num) : First V (g.push x).all y := by
  obtain ⟨a, b, e, h1, h2⟩ := h
  unfold Groups.all at e
  have e' : (g.push x).all = (g.nonGreedy ++ g.nothing) ++ x :: g.greedy := by simp [Groups.push, Groups.all]
  rw [e']
  rw [List.append_eq_append_iff] at e
  rcases e with ⟨u, rfl, hu⟩ | ⟨u, hu, hu'⟩
  · rw [hu]
    refine ⟨g.nonGreedy ++ g.nothing ++ x :: u, b, by simp, h1, fun z hz => ?_⟩
    simp only [List.mem_append, List.mem_cons] at hz h2
    rcases hz with hz | rfl | hz
    · exact h2 z (.inl hz)
    · exact hx
    · exact h2 z (.inr hz)
  · rw [hu]
    cases u with
    | nil =>
      simp only [List.nil_append] at hu'
      rw [← hu']
      refine ⟨a ++ [x], b, by simp, h1, fun z hz => ?_⟩
      rcases List.mem_append.1 hz with hz | hz
      · exact h2 z hz
      · rw [List.mem_singleton.1 hz]; exact hx
    | cons u0 u =>
      injection hu' with hu1 hu2
      subst hu1
      exact ⟨a, u ++ x :: g.greedy, by simp, h1, h2⟩

/-- The way out of a repetition. -/
theorem exit_pick (h : Chained n J E A G B L N) (hT : TRepr t n J F) (hw : ∀ c ∈ w, c < 256) {es : List Elem} (hP : Picks t E A G B L N es) {it : Item} {m e pos fuel : Nat} {used : Nat → Bool} {x : Single}
    {r : Groups × (Nat → Bool)} (he : Exit E A G (Ent E A G B es) m it e) (hx : x.num = e) (hL : e ≠ L) (hxp : t.explore fuel (noGroups, used) x 257 pos = some r) :
    ∃ l, r.1 = put it.lazy l ∧ (∀ z ∈ l, Via E N w z.num → ∃ ms, Starts (itemsOf es) ms w) ∧
      ∀ d ns, Above E N L m d w used → d < m → Best (itemsOf es) ns w → ∃ y, First (Via E N w) l y ∧ Stand E A G B N (begAt x.beg es ns pos) (finAt x.fin es ns pos) pos w y := by
  obtain ⟨q, h1, h2⟩ := he
  obtain ⟨hen, hJ⟩ := leads_list h.edges h.sorted h1
  obtain ⟨r1, v1, rfl⟩ := explore_one hT (by rw [hx]; exact hen) (by omega) (by rw [hx]; exact hJ) hxp
  rw [advance_mark] at v1
  have hqn : q < n := hT.lt e hen 257 (by omega) (q, mark it) (by rw [hJ]; simp)
  have hqL : q ≠ L := by
    rintro rfl
    exact hL (h.into e 257 ((h1.2.1.2 _ _).2 ⟨rfl, rfl⟩))
  refine ⟨r1.1.all, none_insert_mark it r1.1, fun z hz hV => ?_, fun d ns ha hd hb => ?_⟩
  · exact (h.run es _ _ h2 w hw).1 (visit_run h.edges hT hw hqn v1 hz hV)
  · have hrun : Run E q w N := (h.run es _ _ h2 w hw).2 ⟨ns, hb.1⟩
    have hqm := h1.1
    rcases v1 with ⟨hu, -⟩ | ⟨-, fuel', r2, v1, rfl⟩
    · exact absurd hrun (ha q hqL (by omega) hqm hu)
    · refine hP (q + 1) q h2 (by omega) hqL w hw _ _ ns pos fuel' r2 rfl ?_ hb v1
      intro q' a1 a2 a3 a4
      rw [Function.update_of_ne a2] at a4
      exact ha q' a1 (by omega) (by omega) a4

/-- The choice between one more repetition and the way out. -/
theorem fork_pick (h : Chained n J E A G B L N) (hT : TRepr t n J F) (hw : ∀ c ∈ w, c < 256) {es : List Elem} (hP : Picks t E A G B L N es) {it : Item} (hs : Shape it) (h0 : it.lo = 0)
    {m d a e pos fuel k : Nat} {ns : List Nat} {used : Nat → Bool} {x : Single} {r : Groups × (Nat → Bool)} (hf : Forks E A G m d a e) (had : a ≠ d) (hde : d < e)
    (hrd : Rd E A G (Ent E A G B es) it a) (hex : Exit E A G (Ent E A G B es) (e + 1) it e) (hx : x.num = d) (hL : d ≠ L) (hab : Above E N L m d w used)
    (hb : Best (it :: itemsOf es) (k :: ns) w) (hxp : t.explore fuel (noGroups, used) x 257 pos = some r) :
    ∃ y, First (Via E N w) (r.1.push x).all y ∧ Stand E A G B N (begAt x.beg (.item it :: es) (k :: ns) pos) (finAt x.fin (.item it :: es) (k :: ns) pos) pos w y := by
  obtain ⟨hdn, hJ⟩ := forks_list h.edges h.sorted hf
  obtain ⟨r1, r2, v1, v2, rfl⟩ := explore_two hT (by rw [hx]; exact hdn) (by omega) (by rw [hx]; exact hJ) hxp
  rw [advance_quiet rfl rfl] at v1 v2
  have han : a < n := hT.lt d hdn 257 (by omega) (a, 0) (by rw [hJ]; simp)
  have hen : e < n := hT.lt d hdn 257 (by omega) (e, 0) (by rw [hJ]; simp)
  have haL : a ≠ L := by
    rintro rfl
    exact hL (h.into d 257 ((hf.2.2.1.2 _ _).2 ⟨rfl, .inl rfl⟩))
  have heL : e ≠ L := by
    rintro rfl
    exact hL (h.into d 257 ((hf.2.2.1.2 _ _).2 ⟨rfl, .inr rfl⟩))
  have hma := hf.1
  have hae := hf.2.1
  have hxV : ¬ Via E N w x.num := by rw [hx]; exact eps_not_via h hf.2.2.1 (fun c p hp => hp.1) hw
  obtain ⟨da, hra, haf⟩ := id hrd
  -- the thread that reads
  have g1 : (used a = true ∧ r1 = (noGroups, used)) ∨ (used a = false ∧ r1 = (⟨[], [⟨a, x.beg, x.fin⟩], []⟩, Function.update used a true)) := by
    rcases v1 with ⟨hu, rfl⟩ | ⟨hu, fuel', r3, v1, rfl⟩
    · exact .inl ⟨hu, rfl⟩
    · refine .inr ⟨hu, ?_⟩
      have := explore_nil hT (cur := ⟨a, x.beg, x.fin⟩) han (by omega) (reads_quiet h.edges hra hs.2.2 han) v1
      subst this
      simp [Groups.push, noGroups]
  have hused : ∀ q, q ≠ a → r1.2 q = used q := by
    intro q hq
    rcases g1 with ⟨-, rfl⟩ | ⟨-, rfl⟩
    · rfl
    · exact Function.update_of_ne hq _ _
  have e1 : noGroups.insert r1.1 0 = r1.1 := none_insert rfl rfl _
  have hng : r1.1.nonGreedy = [] ∧ r1.1.greedy = [] := by
    rcases g1 with ⟨-, rfl⟩ | ⟨-, rfl⟩ <;> exact ⟨rfl, rfl⟩
  have hno : ∀ z ∈ r1.1.nothing, z = ⟨a, x.beg, x.fin⟩ := by
    rcases g1 with ⟨-, rfl⟩ | ⟨-, rfl⟩ <;> simp [noGroups]
  -- the way out
  obtain ⟨q, hlq, -⟩ := id hex
  have heV : ¬ Via E N w e := eps_not_via h hlq.2.1 (fun c p hp => hp.1) hw
  obtain ⟨l, tail, g2, hl, ht, hbest⟩ : ∃ l tail, r2.1 = ⟨(put it.lazy l).nonGreedy, tail, (put it.lazy l).greedy⟩ ∧ (∀ z ∈ l, Via E N w z.num → ∃ ms, Starts (itemsOf es) ms w) ∧
      (∀ z ∈ tail, ¬ Via E N w z.num) ∧ (Best (itemsOf es) ns w → ∃ y, First (Via E N w) l y ∧ Stand E A G B N (begAt x.beg es ns pos) (finAt x.fin es ns pos) pos w y) := by
    rcases v2 with ⟨hu, rfl⟩ | ⟨hu, fuel', r3, v2, rfl⟩
    · refine ⟨[], [], by unfold put; split <;> rfl, by simp, by simp, fun hb => ?_⟩
      have hrun : Run E e w N := (leads_run hlq h.beg hw).2 ((h.run es _ _ (by obtain ⟨q', h1, h2⟩ := hex; have : q' = q := by
                                                                                 have := (h1.2.1.2 257 q').2 ⟨rfl, rfl⟩
                                                                                 exact ((hlq.2.1.2 _ _).1 this).2
                                                                               rw [this] at h2; exact h2) w hw).2 ⟨ns, hb.1⟩)
      change r1.2 e = true at hu
      rw [hused e (by omega)] at hu
      exact absurd hrun (hab e heL (by omega) (by omega) hu)
    · obtain ⟨l, e2, h2, h3⟩ := exit_pick h hT hw hP hex (x := ⟨e, x.beg, x.fin⟩) rfl heL v2
      refine ⟨l, [⟨e, x.beg, x.fin⟩], ?_, h2, by simpa using heV, fun hb => h3 e ns ?_ (by omega) hb⟩
      · rw [e2]; unfold put Groups.push; split <;> rfl
      · intro q' a1 a2 a3 a4
        rw [Function.update_of_ne a2, hused q' (by omega)] at a4
        exact hab q' a1 (by omega) (by omega) a4
  -- together
  have hall : (((noGroups.insert r1.1 0).insert r2.1 0).push x).all = (put it.lazy l).nonGreedy ++ (r1.1.nothing ++ tail ++ [x]) ++ (put it.lazy l).greedy := by
    rw [e1, insert_zero, g2, hng.1, hng.2]
    simp [Groups.push, Groups.all]
  dsimp only
  rw [hall]
  obtain ⟨hc, hb', hpref⟩ := best_cons.1 hb
  have harun := rd_run hs h.beg (h.run es) hrd hw
  have hcand : ∀ j, Cand (once it) (itemsOf es) j w → 1 ≤ j ∧ Cand it (itemsOf es) j w := fun j hj => ⟨hj.1.1, ⟨by omega, hj.1.2⟩, hj.2⟩
  have htail : ∀ z ∈ tail ++ [x], ¬ Via E N w z.num := by
    intro z hz
    rcases List.mem_append.1 hz with hz | hz
    · exact ht z hz
    · rw [List.mem_singleton.1 hz]; exact hxV
  cases k with
  | zero =>
    obtain ⟨y, hy, hst⟩ := hbest hb'
    refine ⟨y, ?_, hst⟩
    unfold put
    cases hlz : it.lazy with
    | true =>
      simp only [if_true]
      exact (hy.append _).append _
    | false =>
      simp only [Bool.false_eq_true, if_false, List.nil_append]
      refine First.after (fun z hz => ?_) hy
      rw [List.append_assoc] at hz
      rcases List.mem_append.1 hz with hz | hz
      · rw [hno z hz]
        intro hV
        obtain ⟨j, hj⟩ := harun.1 ((reads_via h hra hs.2.2 hw).2 hV)
        obtain ⟨hj1, hj⟩ := hcand j hj
        have := hpref j hj (by omega)
        unfold Pref at this
        rw [hlz] at this
        simp at this
      · exact htail z hz
  | succ k =>
    have hbo := best_once hs.1 hb
    have hVa : Via E N w a := (reads_via h hra hs.2.2 hw).1 (harun.2 ⟨k + 1, (best_cons.1 hbo).1⟩)
    have hnoth : r1.1.nothing = [⟨a, x.beg, x.fin⟩] := by
      rcases g1 with ⟨hu, -⟩ | ⟨-, rfl⟩
      · exact absurd ((reads_via h hra hs.2.2 hw).2 hVa) (hab a haL had hma hu)
      · rfl
    refine ⟨⟨a, x.beg, x.fin⟩, ?_, .inr ⟨it, es, k, ns, hs, hrd, hbo, rfl, rfl⟩⟩
    rw [hnoth]
    unfold put
    cases hlz : it.lazy with
    | true =>
      simp only [if_true]
      refine First.append (First.after (fun z hz hV => ?_) (First.head hVa _)) _
      have := hpref 0 ((cand_zero h0).2 (hl z hz hV)) (by omega)
      unfold Pref at this
      rw [hlz] at this
      simp at this
    | false =>
      simp only [Bool.false_eq_true, if_false, List.nil_append]
      exact First.append (First.head hVa _) _

/-- After a byte. -/
theorem after_pick (h : Chained n J E A G B L N) (hT : TRepr t n J F) (hw : ∀ c ∈ w, c < 256) {es : List Elem} (hP : Picks t E A G B L N es) {it : Item} (hs : Shape it)
    {d pos fuel k : Nat} {ns : List Nat} {used : Nat → Bool} {x : Single} {r : Groups × (Nat → Bool)} (haf : After E A G (Ent E A G B es) it d) (hx : x.num = d) (hL : d ≠ L)
    (hab : Above E N L 0 d w used) (hb : Best (rest it :: itemsOf es) (k :: ns) w) (hxp : t.explore fuel (noGroups, used) x 257 pos = some r) :
    ∃ y, First (Via E N w) (r.1.push x).all y ∧ Stand E A G B N (begAt x.beg (.item it :: es) (k :: ns) pos) (finAt x.fin (.item it :: es) (k :: ns) pos) pos w y := by
  unfold After at haf
  cases hh : it.hi with
  | some j =>
    rw [hh] at haf
    dsimp only at haf
    obtain ⟨hc, hb', -⟩ := best_cons.1 hb
    obtain rfl := cand_rest_some hs hh hc
    have hab' : Above E N L (d + 1) d w used := fun q a1 a2 _ a4 => hab q a1 a2 (by omega) a4
    split at haf
    · obtain ⟨l, e1, -, h3⟩ := exit_pick h hT hw hP haf hx hL hxp
      obtain ⟨y, hy, hst⟩ := h3 d ns hab' (by omega) hb'
      refine ⟨y, First.push ?_ ?_, hst⟩
      · rw [e1]; unfold put Groups.all; split <;> simpa using hy
      · obtain ⟨q, hq, -⟩ := haf
        rw [hx]
        exact eps_not_via h hq.2.1 (fun c p hp => hp.1) hw
    · exact hP (d + 1) d haf (by omega) hL w hw used x ns pos fuel r hx hab' hb' hxp
  | none =>
    rw [hh] at haf
    obtain ⟨a, e, s, f1, h1, h2, r1, f2, h3, h4, hex⟩ := haf
    have hr : rest it = { it with lo := 0 } := by unfold rest; rw [hh]; rfl
    have hrd : Rd E A G (Ent E A G B es) (rest it) a := by
      refine ⟨s, r1, ?_⟩
      unfold After
      rw [hr]
      dsimp only
      rw [hh]
      exact ⟨a, e, s, f2, h3, h4, r1, f2, h3, h4, hex⟩
    have hs' : Shape (rest it) := by rw [hr]; exact ⟨by simp, hs.2.1, hs.2.2⟩
    exact fork_pick h hT hw hP hs' rfl f1 h1 h2 hrd hex hx hL hab hb hxp

/-- Chains. -/
theorem picks (h : Chained n J E A G B L N) (hT : TRepr t n J F) : ∀ es, Picks t E A G B L N es := by
  intro es
  induction es with
  | nil =>
    intro m p he hpm hL w hw used x ns pos fuel r hx hab hb hxp
    obtain ⟨hm, hB⟩ := he
    have hl := h.ends p hB
    obtain ⟨hpn, hJ⟩ := leads_list h.edges h.sorted hl
    obtain ⟨r1, v1, rfl⟩ := explore_one hT (by rw [hx]; exact hpn) (by omega) (by rw [hx]; exact hJ) hxp
    rw [advance_quiet rfl rfl] at v1
    have hne := leads_ne hl h.beg
    have e1 := visit_last h hT hw (s := ⟨N, x.beg, x.fin⟩) rfl (fun hu => hab N h.last_ne (Ne.symm hne) (by
      have := hl.1
      omega) hu) v1
    refine ⟨⟨N, x.beg, x.fin⟩, First.push ?_ ?_, .inl ⟨rfl, rfl, rfl⟩⟩
    · show First _ (noGroups.insert r1.1 0).all _
      rw [none_insert rfl rfl, e1]
      exact First.head (h.viaLast hw) _
    · rw [hx]
      exact eps_not_via h hl.2.1 (fun c p hp => hp.1) hw
  | cons el es ih =>
    intro m p he hpm hL w hw used x ns pos fuel r hx hab hb hxp
    -- the two marks
    have pass : ∀ a : Nat, a &&& 8 = 0 → a &&& 4 = 0 → (∃ q, Leads E A G m p q a ∧ Ent E A G B es (q + 1) q) → Best (itemsOf es) ns w → ∃ q, 
        ∃ y, First (Via E N w) (r.1.push x).all y ∧ Stand E A G B N (begAt (advance x pos (q, a)).beg es ns pos) (finAt (advance x pos (q, a)).fin es ns pos) pos w y := by
      rintro a a8 a4 ⟨q, hl, he⟩ hb
      obtain ⟨hpn, hJ⟩ := leads_list h.edges h.sorted hl
      obtain ⟨r1, v1, rfl⟩ := explore_one hT (by rw [hx]; exact hpn) (by omega) (by rw [hx]; exact hJ) hxp
      have hqL : q ≠ L := by
        rintro rfl
        exact hL (h.into p 257 ((hl.2.1.2 _ _).2 ⟨rfl, rfl⟩))
      have hrun : Run E q w N := (h.run es _ _ he w hw).2 ⟨ns, hb.1⟩
      have hmq := hl.1
      have hnum : (advance x pos (q, a)).num = q := advance_num _ _ _
      refine ⟨q, ?_⟩
      rcases v1 with ⟨hu, -⟩ | ⟨-, fuel', r2, v1, rfl⟩
      · rw [hnum] at hu
        exact absurd hrun (hab q hqL (by omega) hmq hu)
      · obtain ⟨y, hy, hst⟩ := ih (q + 1) q he (by omega) hqL w hw _ _ ns pos fuel' r2 hnum (by
          intro q' a1 a2 a3 a4
          rw [hnum, Function.update_of_ne a2] at a4
          exact hab q' a1 (by omega) (by omega) a4) hb v1
        refine ⟨y, First.push ?_ ?_, hst⟩
        · dsimp only
          rw [none_insert a8 a4]
          exact hy
        · rw [hx]
          exact eps_not_via h hl.2.1 (fun c p hp => hp.1) hw
    cases el with
    | opn =>
      obtain ⟨q, y, hy, hst⟩ := pass 1 rfl rfl he hb
      rw [advance_opn] at hst
      exact ⟨y, hy, hst⟩
    | cls =>
      obtain ⟨q, y, hy, hst⟩ := pass 2 rfl rfl he hb
      rw [advance_cls] at hst
      exact ⟨y, hy, hst⟩
    | item it =>
      obtain ⟨hs, he⟩ := he
      change Best (it :: itemsOf es) ns w at hb
      cases ns with
      | nil => exact absurd hb.1 (by simp [Starts])
      | cons k ns =>
        split at he
        · rename_i h0
          obtain ⟨a, e, f1, hrd, hex⟩ := he
          have := f1.1
          have := f1.2.1
          exact fork_pick h hT hw ih hs h0 f1 (by omega) (by omega) hrd hex hx hL hab hb hxp
        · rename_i h0
          have hlo := hs.1
          obtain ⟨hc, -⟩ := best_cons.1 hb
          have hk := hc.1.1
          obtain ⟨k, rfl⟩ : ∃ k', k = k' + 1 := ⟨k - 1, by omega⟩
          have hbo := best_once hs.1 hb
          obtain ⟨d, hra, -⟩ := id he
          have hV : Via E N w p := (reads_via h hra hs.2.2 hw).1 ((rd_run hs h.beg (h.run es) he hw).2 ⟨_, (best_cons.1 hbo).1⟩)
          have hpn : p < n := by
            obtain ⟨c, w', rfl, h1, -⟩ := (reads_run hra hs.2.2 h.beg hw).1 ((rd_run hs h.beg (h.run es) he hw).2 ⟨_, (best_cons.1 hbo).1⟩)
            exact h.edges.lt _ _ _ ((hra.1.2 _ _).2 ⟨h1, rfl⟩)
          have e1 := explore_nil hT (by rw [hx]; exact hpn) (by omega) (by rw [hx]; exact reads_quiet h.edges hra hs.2.2 hpn) hxp
          subst e1
          refine ⟨x, First.head (by rw [hx]; exact hV) _, .inr ⟨it, es, k, ns, hs, by rw [hx]; exact he, hbo, rfl, rfl⟩⟩

/-- One letter. -/
theorem letter_pick (h : Chained n J E A G B L N) (hT : TRepr t n J F) {c : Nat} (hc : c < 256) (hw : ∀ c ∈ w, c < 256) {b f pos fuel : Nat} {used : Nat → Bool} {x : Single}
    {r : Groups × (Nat → Bool)} (hx : Stand E A G B N b f pos (c :: w) x) (hL : x.num ≠ L) (hu : ∀ q, used q = true → ¬ Run E q w N)
    (hxp : t.explore fuel (noGroups, used) x c (pos + 1) = some r) : ∃ y, First (Via E N w) r.1.all y ∧ Stand E A G B N b f (pos + 1) w y := by
  rcases hx with ⟨hN, hb, hf⟩ | ⟨it, es, k, ns, hs, ⟨d, hrd, haf⟩, hbest, hb, hf⟩
  · obtain ⟨r1, v1, rfl⟩ := explore_one hT (by rw [hN]; exact h.last_lt) (by omega) (by rw [hN]; exact h.list c (by omega)) hxp
    rw [advance_quiet rfl rfl] at v1
    have e1 := visit_last h hT hw (s := ⟨N, x.beg, x.fin⟩) rfl (hu N) v1
    refine ⟨⟨N, x.beg, x.fin⟩, ?_, .inl ⟨rfl, hb, hf⟩⟩
    show First _ (noGroups.insert r1.1 0).all _
    rw [none_insert rfl rfl, e1]
    exact First.head (h.viaLast hw) _
  · obtain ⟨hcb, hbest⟩ := best_rest hs hbest
    obtain ⟨hxn, hJ⟩ := reads_list h.edges h.sorted hrd hcb hc
    obtain ⟨r1, v1, rfl⟩ := explore_one hT hxn (by omega) hJ hxp
    rw [advance_quiet rfl rfl] at v1
    have hdL : d ≠ L := by
      rintro rfl
      exact hL (h.into _ c ((hrd.1.2 _ _).2 ⟨hcb, rfl⟩))
    have hrun : Run E d w N := (after_run hs h.beg (h.run es) haf hw).2 ⟨k, (best_cons.1 hbest).1⟩
    rcases v1 with ⟨hu', -⟩ | ⟨-, fuel', r2, v1, rfl⟩
    · exact absurd hrun (hu d hu')
    · obtain ⟨y, hy, hst⟩ := after_pick h hT hw (picks h hT es) hs haf (x := ⟨d, x.beg, x.fin⟩) rfl hdL (by
        intro q a1 a2 a3 a4
        rw [Function.update_of_ne a2] at a4
        exact hu q a4) hbest v1
      refine ⟨y, ?_, ?_⟩
      · dsimp only
        rw [none_insert rfl rfl]
        exact hy
      · have e1 : begAt x.beg (.item it :: es) (k :: ns) (pos + 1) = b := by
          rw [← hb]
          simp only [begAt, List.headD_cons, List.tail_cons]
          rw [show pos + 1 + k = pos + (k + 1) by omega]
        have e2 : finAt x.fin (.item it :: es) (k :: ns) (pos + 1) = f := by
          rw [← hf]
          simp only [finAt, List.headD_cons, List.tail_cons]
          rw [show pos + 1 + k = pos + (k + 1) by omega]
        rw [e1, e2] at hst
        exact hst

end Capture
end Pire
