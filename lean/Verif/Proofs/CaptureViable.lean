import Verif.Proofs.CaptureOrder

/-!
# The first thread that can still match (C60)

Among the threads of a slow capturing scanner the first one that can still reach a match with the rest of the text is the one that is reported in
the end: the next list begins, apart from threads that cannot match, with what comes from it.
-/

namespace Pire
namespace Capture

variable {t : Table} {n : Nat} {J : Nat → Nat → List (Nat × Nat)} {F : Nat → Bool} {E : Nat → Nat → Nat → Prop} {A : Nat → Nat → Nat} {L N ini : Nat}

/-- From `q`, without another epsilon first, the text `w` leads to `N`. -/
def Via (E : Nat → Nat → Nat → Prop) (N : Nat) : List Nat → Nat → Prop
  | [], q => q = N
  | c :: w, q => ∃ d, E q c d ∧ Run E d w N

/-- `y` is the first of the list with the property. -/
def First (V : Nat → Prop) (l : List Single) (y : Single) : Prop := ∃ a b, l = a ++ y :: b ∧ V y.num ∧ ∀ z ∈ a, ¬ V z.num

theorem First.append {V : Nat → Prop} {l : List Single} {y : Single} (h : First V l y) (m : List Single) : First V (l ++ m) y := by
  obtain ⟨a, b, rfl, h1, h2⟩ := h
  exact ⟨a, b ++ m, by simp, h1, h2⟩

theorem First.after {V : Nat → Prop} {l m : List Single} {y : Single} (hl : ∀ z ∈ l, ¬ V z.num) (h : First V m y) : First V (l ++ m) y := by
  obtain ⟨a, b, rfl, h1, h2⟩ := h
  refine ⟨l ++ a, b, by simp, h1, fun z hz => ?_⟩
  rcases List.mem_append.1 hz with hz | hz
  · exact hl z hz
  · exact h2 z hz

theorem First.mem {V : Nat → Prop} {l : List Single} {y : Single} (h : First V l y) : y ∈ l ∧ V y.num := by
  obtain ⟨a, b, rfl, h1, -⟩ := h
  exact ⟨by simp, h1⟩

theorem first_or (V : Nat → Prop) (l : List Single) : (∀ z ∈ l, ¬ V z.num) ∨ ∃ y, First V l y := by
  induction l with
  | nil => exact .inl (by simp)
  | cons x l ih =>
    by_cases hx : V x.num
    · exact .inr ⟨x, [], l, rfl, hx, by simp⟩
    · rcases ih with h | ⟨y, h⟩
      · refine .inl fun z hz => ?_
        rcases List.mem_cons.1 hz with rfl | hz
        · exact hx
        · exact h z hz
      · refine .inr ⟨y, ?_⟩
        exact First.after (l := [x]) (by simpa using hx) h

/-- Cutting off something behind the first one. -/
theorem First.prefix {V : Nat → Prop} {l p : List Single} {y : Single} (h : First V l y) (hp : p <+: l) (hm : ∃ z ∈ p, V z.num) : First V p y := by
  obtain ⟨m, rfl⟩ := hp
  rcases first_or V p with h1 | ⟨y', h1⟩
  · obtain ⟨z, hz, hv⟩ := hm
    exact absurd hv (h1 z hz)
  · obtain ⟨a, b, e, h2, h3⟩ := h
    obtain ⟨a', b', rfl, h4, h5⟩ := h1
    have e' : a' ++ y' :: (b' ++ m) = a ++ y :: b := by rw [← e]; simp
    obtain ⟨rfl, h6⟩ : a' = a ∧ y' :: (b' ++ m) = y :: b := by
      rw [List.append_eq_append_iff] at e'
      rcases e' with ⟨u, rfl, h6⟩ | ⟨u, rfl, h6⟩
      · cases u with
        | nil => exact ⟨by simp, by simpa using h6⟩
        | cons z u =>
          injection h6 with h6 h7
          subst h6
          exact absurd h4 (h3 y' (by simp))
      · cases u with
        | nil => exact ⟨by simp, by simpa using h6.symm⟩
        | cons z u =>
          injection h6 with h6 h7
          subst h6
          exact absurd h2 (h5 y (by simp))
    injection h6 with h6 h7
    subst h6
    exact ⟨a', b', rfl, h4, h5⟩

/-! ### Runs -/

theorem run_via {d : Nat} {w : List Nat} (hr : Run E d w N) : ∃ q, Run E d [] q ∧ Via E N w q := by
  induction hr with
  | refl q => exact ⟨q, .refl _, rfl⟩
  | eps he _ ih =>
    obtain ⟨q, h1, h2⟩ := ih
    exact ⟨q, .eps he h1, h2⟩
  | @step q c q' w p hc he hr ih => exact ⟨q, .refl _, q', he, hr⟩

theorem via_run {d q : Nat} {w : List Nat} (hw : ∀ c ∈ w, c < 256) (h : Run E d [] q) (hv : Via E N w q) : Run E d w N := by
  cases w with
  | nil =>
    have : q = N := hv
    subst this; exact h
  | cons c w =>
    obtain ⟨p, h1, h2⟩ := hv
    have hc := hw c (by simp)
    have := h.trans (.step (by omega) h1 h2)
    simpa using this

theorem path_edge (hE : Edges n J E A) (h : TRepr t n J F) {pos : Nat} {cur s : Single} {c : Nat} (hq : cur.num < n) (hc : c < 264) (hp : Path J pos cur c s) :
    s.num < n ∧ ∃ d, E cur.num c d ∧ Run E d [] s.num := by
  induction hp with
  | @one tr htr =>
    rw [advance_num]
    exact ⟨h.lt _ hq _ hc _ htr, tr.1, ((hE.mem _ hq _ hc tr).1 htr).1, .refl _⟩
  | @eps s tr _ htr ih =>
    obtain ⟨h1, d, h2, h3⟩ := ih
    rw [advance_num]
    have he := ((hE.mem _ h1 257 (by omega) tr).1 htr).1
    exact ⟨h.lt _ h1 257 (by omega) _ htr, d, h2, by simpa using h3.snocEps he⟩

/-- What is used is closed and cannot match. -/
def Settled (n : Nat) (J : Nat → Nat → List (Nat × Nat)) (V : Nat → Prop) (used : Nat → Bool) : Prop :=
  ∀ q, used q = true → q < n ∧ ¬ V q ∧ ∀ tr ∈ J q 257, used tr.1 = true

/-- What the waiting state or the pattern reaches. -/
def Reach (E : Nat → Nat → Nat → Prop) (L ini q : Nat) : Prop := q = L ∨ ∃ u, (∀ c ∈ u, c < 256) ∧ Run E ini u q

theorem Reach.matched (hS : Surrounded n J F E A L N ini) {q : Nat} (h : Reach E L ini q) (hm : MatchedAt J F q) : q = N := by
  rcases h with rfl | ⟨u, hu, hr⟩
  · exact absurd hm hS.waits
  · exact hS.matched u q hu hr hm

theorem Reach.path (hS : Surrounded n J F E A L N ini) (hE : Edges n J E A) (h : TRepr t n J F) {pos : Nat} {cur s : Single} {c : Nat} (hq : cur.num < n) (hr : Reach E L ini cur.num)
    (hc : c < 256 ∨ c = 258 ∧ cur.num = L) (hp : Path J pos cur c s) : Reach E L ini s.num := by
  have hc' : c < 264 := by omega
  obtain ⟨-, d, h1, h2⟩ := path_edge hE h hq hc' hp
  have hd : Reach E L ini d := by
    rcases hr with hr | ⟨u, hu, hr⟩
    · rw [hr] at h1
      exact .inl (hS.loop_only c d (by omega) h1)
    · rcases hc with hc | ⟨-, hc⟩
      · refine .inr ⟨u ++ [c], fun x hx => ?_, hr.trans (Run.one (by omega) h1)⟩
        rcases List.mem_append.1 hx with hx | hx
        · exact hu x hx
        · rw [List.mem_singleton.1 hx]; exact hc
      · exact absurd hc (run_ne hS hr hS.ini_ne)
  clear h1 hp
  generalize s.num = sn at h2 ⊢
  generalize hv : ([] : List Nat) = v at h2
  induction h2 with
  | refl => exact hd
  | @eps q q' _ _ he _ ih =>
    refine ih ?_ hv
    rcases hd with rfl | ⟨u, hu, hr⟩
    · rcases hS.loop_eps 257 rfl _ he with rfl | rfl
      · exact .inl rfl
      · exact .inr ⟨[], by simp, .refl _⟩
    · exact .inr ⟨u, hu, hr.snocEps he⟩
  | step => cases hv

theorem via_last (hS : Surrounded n J F E A L N ini) {w : List Nat} (hw : ∀ c ∈ w, c < 256) : Via E N w N := by
  have hr : ∀ w : List Nat, (∀ c ∈ w, c < 256) → Run E N w N := by
    intro w
    induction w with
    | nil => exact fun _ => .refl _
    | cons c w ih =>
      intro hw
      have := hw c (by simp)
      exact .step (by omega) (hS.last c (by omega)) (ih fun x hx => hw x (by simp [hx]))
  cases w with
  | nil => exact rfl
  | cons c w =>
    have := hw c (by simp)
    exact ⟨N, hS.last c (by omega), hr w fun x hx => hw x (by simp [hx])⟩

/-! ### A list of threads and the next one -/

/-- The threads are states of the scanner that can be reached. -/
def Fair (n : Nat) (E : Nat → Nat → Nat → Prop) (L ini : Nat) (l : List Single) : Prop := ∀ z ∈ l, z.num < n ∧ Reach E L ini z.num

theorem Fair.append {l m : List Single} (h : Fair n E L ini l) (h' : Fair n E L ini m) : Fair n E L ini (l ++ m) := fun z hz => by
  rcases List.mem_append.1 hz with hz | hz
  · exact h z hz
  · exact h' z hz

/-- One thread. -/
theorem one_thread (hS : Surrounded n J F E A L N ini) (hE : Edges n J E A) (h : TRepr t n J F) {c : Nat} {x : Single} (hx : x.num < n) (hr : Reach E L ini x.num)
    (hc : c < 256 ∨ c = 258 ∧ x.num = L) (s : SState) (used : Nat → Bool) : ∃ r s' new p, t.explore (t.statesCount + 1) (⟨[], [], []⟩, used) x c s.pos = some r ∧
      Explored J n s.pos x c (J x.num c) (⟨[], [], []⟩, used) r new ∧ r.1.all.Perm new ∧ t.update s r.1 = some s' ∧ s'.pos = s.pos ∧ s'.states = s.states ++ p ∧ p <+: r.1.all ∧
      Fair n E L ini r.1.all ∧ (p = r.1.all ∨ ∃ z ∈ p, z.num = N) := by
  obtain ⟨r, new, e, hx'⟩ := explore_spec h s.pos (t.statesCount + 1) (⟨[], [], []⟩, used) x c hx (by omega)
    (by have := unused_le (n := n) used; rw [h.states]; simp only; omega)
  have hp : r.1.all.Perm new := by simpa [Groups.all] using hx'.all
  have hfair : Fair n E L ini r.1.all := fun z hz => by
    obtain ⟨-, h1, h2⟩ := hx'.fresh z (hp.mem_iff.1 hz)
    exact ⟨h1, hr.path hS hE h hx hc h2⟩
  obtain ⟨s', p, e1, e2, e3, e4, e5⟩ := pushAll_spec h r.1.all s fun z hz => (hfair z hz).1
  refine ⟨r, s', new, p, e, hx', hp, e1, e2, e3, e4, hfair, ?_⟩
  rcases e5 with ⟨-, e5, -⟩ | ⟨z, hz, -, hm⟩
  · exact .inl e5
  · exact .inr ⟨z, hz, (hfair z (e4.subset hz)).2.matched hS hm⟩

theorem nextLoop_cons (c : Nat) (x : Single) (cs : List Single) (acc : SState × (Nat → Bool)) : t.nextLoop c (x :: cs) acc =
    (t.explore (t.statesCount + 1) (⟨[], [], []⟩, acc.2) x c acc.1.pos).bind fun r => (t.update acc.1 r.1).bind fun n => t.nextLoop c cs (n, r.2) := rfl

/-- More threads: what is there stays at the front. -/
theorem nextLoop_total (hS : Surrounded n J F E A L N ini) (hE : Edges n J E A) (h : TRepr t n J F) {c : Nat} (hc : c < 256) : ∀ (cs : List Single) (s : SState) (used : Nat → Bool),
    Fair n E L ini cs → Fair n E L ini s.states → ∃ r, t.nextLoop c cs (s, used) = some r ∧ r.1.pos = s.pos ∧ s.states <+: r.1.states ∧ Fair n E L ini r.1.states := by
  intro cs
  induction cs with
  | nil => intro s used _ hf; exact ⟨(s, used), rfl, rfl, List.prefix_refl _, hf⟩
  | cons x cs ih =>
    intro s used hcs hf
    have hx := hcs x (by simp)
    obtain ⟨r, s', new, p, e1, -, -, e2, e3, e4, e5, hfair, -⟩ := one_thread hS hE h hx.1 hx.2 (.inl hc) s used
    obtain ⟨r', f1, f2, f3, f4⟩ := ih s' r.2 (fun z hz => hcs z (by simp [hz])) (by rw [e4]; exact hf.append fun z hz => hfair z (e5.subset hz))
    refine ⟨r', ?_, by rw [f2, e3], ?_, f4⟩
    · rw [nextLoop_cons]
      dsimp only
      rw [e1, Option.bind_some, e2, Option.bind_some, f1]
    · rw [e4] at f3
      exact (List.prefix_append _ _).trans f3

/-- What comes from a thread that cannot match cannot match. -/
theorem dead_path (hE : Edges n J E A) (h : TRepr t n J F) {pos : Nat} {x s : Single} {c : Nat} {w : List Nat} (hw : ∀ c ∈ w, c < 256) (hc : c < 264) (hx : x.num < n) (hp : Path J pos x c s)
    (hd : ¬ Via E N (c :: w) x.num) : ¬ Via E N w s.num := by
  obtain ⟨-, d, h1, h2⟩ := path_edge hE h hx hc hp
  exact fun hv => hd ⟨d, h1, via_run hw h2 hv⟩

/-- Threads that cannot match. -/
theorem nextLoop_dead (hS : Surrounded n J F E A L N ini) (hE : Edges n J E A) (h : TRepr t n J F) {c : Nat} (hc : c < 256) {w : List Nat} (hw : ∀ c ∈ w, c < 256) :
    ∀ (cs : List Single) (s : SState) (used : Nat → Bool), Fair n E L ini cs → Fair n E L ini s.states → (∀ z ∈ cs, ¬ Via E N (c :: w) z.num) → (∀ z ∈ s.states, ¬ Via E N w z.num) →
    Settled n J (Via E N w) used → ∃ r, t.nextLoop c cs (s, used) = some r ∧ r.1.pos = s.pos ∧ Fair n E L ini r.1.states ∧ (∀ z ∈ r.1.states, ¬ Via E N w z.num) ∧
      Settled n J (Via E N w) r.2 := by
  intro cs
  induction cs with
  | nil => intro s used _ hf _ hd hu; exact ⟨(s, used), rfl, rfl, hf, hd, hu⟩
  | cons x cs ih =>
    intro s used hcs hf hdc hd hu
    have hx := hcs x (by simp)
    obtain ⟨r, s', new, p, e1, hx', hp, e2, e3, e4, e5, hfair, -⟩ := one_thread hS hE h hx.1 hx.2 (.inl hc) s used
    have hdead : ∀ z ∈ new, ¬ Via E N w z.num := fun z hz => dead_path hE h hw (by omega) hx.1 (hx'.fresh z hz).2.2 (hdc x (by simp))
    have hu' : Settled n J (Via E N w) r.2 := by
      intro q hq
      rcases (hx'.used q).1 hq with h1 | h1
      · obtain ⟨h2, h3, h4⟩ := hu q h1
        exact ⟨h2, h3, fun tr htr => (hx'.used _).2 (.inl (h4 tr htr))⟩
      · obtain ⟨z, hz, rfl⟩ := List.mem_map.1 h1
        exact ⟨(hx'.fresh z hz).2.1, hdead z hz, hx'.eps z hz⟩
    obtain ⟨r', f1, f2, f3, f4, f5⟩ := ih s' r.2 (fun z hz => hcs z (by simp [hz])) (by rw [e4]; exact hf.append fun z hz => hfair z (e5.subset hz))
      (fun z hz => hdc z (by simp [hz])) (by
        intro z hz
        rw [e4] at hz
        rcases List.mem_append.1 hz with hz | hz
        · exact hd z hz
        · exact hdead z (hp.mem_iff.1 (e5.subset hz))) hu'
    refine ⟨r', ?_, by rw [f2, e3], f3, f4, f5⟩
    rw [nextLoop_cons]
    dsimp only
    rw [e1, Option.bind_some, e2, Option.bind_some, f1]

theorem first_cut (hS : Surrounded n J F E A L N ini) {w : List Nat} (hw : ∀ c ∈ w, c < 256) {l p : List Single} (hp : p <+: l) (hcut : p = l ∨ ∃ z ∈ p, z.num = N) {y : Single}
    (hy : First (Via E N w) l y) : First (Via E N w) p y := by
  rcases hcut with rfl | ⟨z, hz, hzN⟩
  · exact hy
  · exact hy.prefix hp ⟨z, hz, by rw [hzN]; exact via_last hS hw⟩

/-- The next list. -/
theorem next_first (hS : Surrounded n J F E A L N ini) (hE : Edges n J E A) (h : TRepr t n J F) {c : Nat} (hc : c < 256) {w : List Nat} (hw : ∀ c ∈ w, c < 256) {s : SState}
    (hf : Fair n E L ini s.states) {x : Single} (hx : First (Via E N (c :: w)) s.states x) : ∃ s' used r, t.next s c = some s' ∧ s'.pos = (s.pos + 1) % 2 ^ 64 ∧ Fair n E L ini s'.states ∧
      Settled n J (Via E N w) used ∧ t.explore (t.statesCount + 1) (⟨[], [], []⟩, used) x c ((s.pos + 1) % 2 ^ 64) = some r ∧
      ∀ y, First (Via E N w) r.1.all y → First (Via E N w) s'.states y := by
  obtain ⟨a, b, e, hv, hd⟩ := hx
  have hfa : Fair n E L ini a := fun z hz => hf z (by rw [e]; simp [hz])
  have hfb : Fair n E L ini b := fun z hz => hf z (by rw [e]; simp [hz])
  have hxx := hf x (by rw [e]; simp)
  obtain ⟨r1, e1, p1, f1, d1, u1⟩ := nextLoop_dead hS hE h hc hw a { states := [], pos := (s.pos + 1) % 2 ^ 64, matched := s.matched } (fun _ => false) hfa
    (fun z hz => by cases hz) hd (fun z hz => by cases hz) (fun q hq => by cases hq)
  obtain ⟨r, s2, new, p, e2, -, -, e3, e4, e5, e6, hfair, hcut⟩ := one_thread hS hE h hxx.1 hxx.2 (.inl hc) r1.1 r1.2
  have f2 : Fair n E L ini s2.states := by rw [e5]; exact f1.append fun z hz => hfair z (e6.subset hz)
  obtain ⟨r3, e7, e8, e9, f3⟩ := nextLoop_total hS hE h hc b s2 r.2 hfb f2
  refine ⟨r3.1, r1.2, r, ?_, ?_, f3, u1, ?_, ?_⟩
  · unfold Table.next
    rw [e, nextLoop_append, e1, Option.bind_some, nextLoop_cons, e2, Option.bind_some, e3, Option.bind_some, e7]
    rfl
  · rw [e8, e4, p1]
  · rw [p1] at e2; exact e2
  · intro y hy
    have h1 := first_cut hS hw e6 hcut hy
    have h2 := First.after d1 h1
    rw [← e5] at h2
    obtain ⟨m, hm⟩ := e9
    rw [← hm]
    exact h2.append m

/-- The first list. -/
theorem init_first (hS : Surrounded n J F E A L N ini) (hE : Edges n J E A) (h : TRepr t n J F) (hstart : t.start = L) {w : List Nat} (hw : ∀ c ∈ w, c < 256) :
    ∃ s r, t.initState = some s ∧ s.pos = 0 ∧ Fair n E L ini s.states ∧ t.explore (t.statesCount + 1) (⟨[], [], []⟩, fun _ => false) (Single.mk0 L) 258 0 = some r ∧
      ∀ y, First (Via E N w) r.1.all y → First (Via E N w) s.states y := by
  have hn : 0 < n := Nat.lt_of_le_of_lt (Nat.zero_le _) h.start_lt
  obtain ⟨r, s', new, p, e1, -, -, e2, e3, e4, e5, hfair, hcut⟩ := one_thread hS hE h (x := Single.mk0 L) (c := 258) hS.loop_lt (.inl rfl) (.inr ⟨rfl, rfl⟩) ⟨[], 0, none⟩ (fun _ => false)
  have hJ : J 0 258 = [] := by
    cases hJ : J 0 258 with
    | nil => rfl
    | cons tr trs => exact absurd ((hE.mem 0 hn 258 (by omega) tr).1 (by rw [hJ]; simp)).1 (hS.zero _ rfl _)
  have e3' : t.explore (t.statesCount + 1) r (Single.mk0 0) BeginMark 0 = some r := by
    unfold Table.explore
    have e : t.nextStates (Single.mk0 0).num BeginMark = some [] := by rw [← hJ]; exact h.next 0 hn 258 (by omega)
    rw [e]; rfl
  refine ⟨s', r, ?_, e3, ?_, e1, ?_⟩
  · unfold Table.initState
    rw [hstart]
    have e1' : t.explore (t.statesCount + 1) (⟨[], [], []⟩, fun _ => false) (Single.mk0 L) BeginMark 0 = some r := e1
    rw [e1', Option.bind_some, e3', Option.bind_some]
    exact e2
  · rw [e4]; exact fun z hz => hfair z (e5.subset (by simpa using hz))
  · intro y hy
    rw [e4]
    exact First.after (by simp) (first_cut hS hw e5 hcut hy)

/-- What is reported. -/
theorem capture_first (hS : Surrounded n J F E A L N ini) (h : TRepr t n J F) (hN : MatchedAt J F N) {s : SState} (hf : Fair n E L ini s.states) {y : Single}
    (hy : First (Via E N []) s.states y) : ∃ b, t.getCapture s = some (b, some y) ∧ (y.beg ≠ npos → b = true) := by
  obtain ⟨a, b, e, hv, hd⟩ := hy
  have hv : y.num = N := hv
  have key : ∀ a : List Single, Fair n E L ini a → (∀ z ∈ a, ¬ Via E N [] z.num) → y.num < n → ∃ c, Table.getCapture.loop t s (a ++ y :: b) = some (c, some y) ∧ (y.beg ≠ npos → c = true) := by
    intro a
    induction a with
    | nil =>
      intro _ _ hyn
      obtain ⟨c, m, e1, h1, h2⟩ := captured_spec h y hyn
      have hm : m = true := h1.2 (by rw [hv]; exact hN)
      refine ⟨c, ?_, fun hb => h2.2 (.inl ⟨hb, by rw [hv]; exact hN⟩)⟩
      rw [List.nil_append]
      unfold Table.getCapture.loop
      rw [e1, Option.bind_some, if_pos hm]
    | cons x a ih =>
      intro hfa hda hyn
      obtain ⟨c, m, e1, h1, -⟩ := captured_spec h x (hfa x (by simp)).1
      have hm : m = false := by
        cases m with
        | false => rfl
        | true => exact absurd ((hfa x (by simp)).2.matched hS (h1.1 rfl)) (hda x (by simp))
      obtain ⟨c', e2, h2⟩ := ih (fun z hz => hfa z (by simp [hz])) (fun z hz => hda z (by simp [hz])) hyn
      refine ⟨c', ?_, h2⟩
      rw [List.cons_append]
      unfold Table.getCapture.loop
      rw [e1, Option.bind_some, if_neg (by simp [hm]), e2]
  obtain ⟨c, e1, h1⟩ := key a (fun z hz => hf z (by rw [e]; simp [hz])) hd (hf y (by rw [e]; simp)).1
  exact ⟨c, by unfold Table.getCapture; rw [e, e1], h1⟩

end Capture
end Pire
