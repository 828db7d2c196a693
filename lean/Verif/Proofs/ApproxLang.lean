import Verif.Proofs.Approx

/-!
# The language of the automaton of `CreateApproxFsm`
-/

namespace Pire
open Spec
namespace Fsm

variable {f g : Fsm} {d : Nat} {ts : List Swp}

theorem Edits.le_tail {swaps : Bool} {k : Nat} {u w : List Nat} (h : Edits swaps false k u w) : Edits swaps true k u w := by
  induction h with
  | done => exact .done
  | keep c _ ih => exact .keep c ih
  | replace c c' _ ih => exact .replace c c' ih
  | drop c _ ih => exact .drop c ih
  | add c _ _ ih => exact .add c (.inl rfl) ih
  | swap a b h _ ih => exact .swap a b h ih

/-- An entry of a row is an edge. -/
theorem Coh.edge_of_dst (hw : f.WF) (h : f.Coh) {q l p : Nat} (hp : p ∈ f.dst q l) : f.Edge q l p := by
  rw [edge_iff]
  by_cases hl : l = 257
  · subst hl; rwa [key_eps]
  · unfold key
    rw [if_neg hl]
    unfold Partition.repOr
    cases hi : f.letters.inv l with
    | none => exact hp
    | some r =>
      rcases h q l r hi with h1 | h1
      · rw [Fsm.dst, h1] at hp; cases hp
      · rw [Fsm.dst, h1] at hp
        exact hp

theorem Edge.dst (he : f.Edge q c p) : p ∈ f.dst q (f.key c) := edge_iff.1 he

theorem langFrom_eps {q p : Nat} {u : List Nat} (he : f.Edge q 257 p) (hu : u ∈ f.LangFrom p) : u ∈ f.LangFrom q := by
  obtain ⟨z, hz, hr⟩ := hu
  exact ⟨z, hz, .eps he hr⟩

theorem langFrom_step {q c p : Nat} {u : List Nat} (hc : c ≠ 257) (he : f.Edge q c p) (hu : u ∈ f.LangFrom p) : c :: u ∈ f.LangFrom q := by
  obtain ⟨z, hz, hr⟩ := hu
  exact ⟨z, hz, .step hc he hr⟩

/-- A word is accepted from `q` up to `k` edits. -/
def NearFrom (f : Fsm) (tail : Bool) (k q : Nat) (w : List Nat) : Prop := ∃ u ∈ f.LangFrom q, ∃ j ≤ k, Edits true tail j u w

theorem NearFrom.mono {tail : Bool} {k k' q : Nat} {w : List Nat} (h : f.NearFrom tail k q w) (hk : k ≤ k') : f.NearFrom tail k' q w := by
  obtain ⟨u, hu, j, hj, he⟩ := h
  exact ⟨u, hu, j, by omega, he⟩

/-- Every run of the automaton can be explained by edits. -/
theorem Approx.sound (h : f.WF) (hc : f.Coh) (ha : Approx f d g ts) {tail : Bool} (htl : tail = true ∨ ∀ q, f.Busy q → [] ∉ f.LangFrom q)
    {x z : Nat} {w : List Nat} (hr : Run g.Edge x w z) (hz : z ∈ g.finals) :
    (∀ i q, i ≤ d → q < f.size → x = q + i * f.size → f.NearFrom tail (d - i) q w) ∧
    (∀ j t, ts[j]? = some t → x = (d + 1) * f.size + j → ∀ i p, i + 1 ≤ d → p < f.size → t.y = p + (i + 1) * f.size →
      (t.first = 257 ∧ f.NearFrom tail (d - (i + 1)) p w) ∨ (t.first ≠ 257 ∧ ∃ w', w = t.first :: w' ∧ f.NearFrom tail (d - (i + 1)) p w')) := by
  -- a first edge from a state between two neighbours
  have mid : ∀ {c y j t x}, g.Edge x c y → ts[j]? = some t → x = (d + 1) * f.size + j → c = t.first ∧ y = t.y := by
    intro c y j t x he ht hx
    have hnl : ∀ i q, i ≤ d → q < f.size → x ≠ q + i * f.size := by
      intro i q hi hq e
      have := layer_lt hq hi
      omega
    rcases (ha.edge _ _ _).1 he with ⟨i, q, p, e1, ⟨hi, -, e2⟩ | ⟨hi, -, e2⟩⟩ | ⟨j', t', hj', ⟨e1, -⟩ | ⟨e1, e2, e3⟩⟩
    · exact absurd e1 (hnl i q hi (h.edge_lt e2).1)
    · exact absurd e1 (hnl i q (by omega) (h.cross_lt e2).1)
    · obtain ⟨i, hi, q, r, p, hp, e2, -⟩ := (ha.swp t').1 (List.mem_of_getElem? hj')
      exact absurd (e1.trans e2) (hnl i q (by omega) (h.dst_lt hp.1).1)
    · obtain rfl : j' = j := by omega
      rw [ht] at hj'
      cases hj'
      exact ⟨e2, e3⟩
  induction hr with
  | refl x =>
    constructor
    · rintro i q hi hq rfl
      obtain ⟨i', -, q', hq', e⟩ := (ha.fin _).1 hz
      obtain ⟨rfl, rfl⟩ := split_unique hq (h.fin_lt _ hq') e
      exact ⟨[], ⟨q, hq', .refl _⟩, 0, by omega, .done⟩
    · rintro j t ht rfl i p hi hp hy
      exfalso
      obtain ⟨i', hi', q', hq', e⟩ := (ha.fin _).1 hz
      have := layer_lt (h.fin_lt _ hq') hi'
      omega
  | @eps x y w z he hr ih =>
    obtain ⟨ih1, ih2⟩ := ih hz
    constructor
    · rintro i q hi hq rfl
      rcases (ha.edge _ _ _).1 he with ⟨i', q', p, e1, ⟨hi', rfl, e2⟩ | ⟨hi', rfl, e2⟩⟩ | ⟨j, t, hj, ⟨e1, e2, e3⟩ | ⟨e1, -⟩⟩
      · obtain ⟨rfl, rfl⟩ := split_unique hq (h.edge_lt e2).1 e1
        obtain ⟨u, hu, j, hj, hE⟩ := ih1 i p hi (h.edge_lt e2).2.2 rfl
        exact ⟨u, langFrom_eps e2 hu, j, hj, hE⟩
      · obtain ⟨rfl, rfl⟩ := split_unique hq (h.cross_lt e2).1 e1
        obtain ⟨u, hu, j, hj, hE⟩ := ih1 (i + 1) p hi' (h.cross_lt e2).2 rfl
        rcases e2.2 with ⟨⟨l, hl⟩, -⟩ | ⟨rfl, -⟩
        · have hl := hc.edge_of_dst h hl
          by_cases h257 : l = 257
          · subst h257
            exact ⟨u, langFrom_eps hl hu, j, by omega, hE⟩
          · exact ⟨l :: u, langFrom_step h257 hl hu, j + 1, by omega, .drop l hE⟩
        · exact ⟨u, hu, j, by omega, hE⟩
      · obtain ⟨i', hi', q', r, p, hp, e4, e5⟩ := (ha.swp t).1 (List.mem_of_getElem? hj)
        obtain ⟨rfl, rfl⟩ := split_unique hq (h.dst_lt hp.1).1 (e1.trans e4)
        have f1 := hc.edge_of_dst h hp.1
        have f2 := hc.edge_of_dst h hp.2.1
        rw [← e2] at f2
        rcases ih2 j t hj e3 i p hi' (h.dst_lt hp.2.1).2.2 e5 with ⟨h1, u, hu, k, hk, hE⟩ | ⟨h1, w', rfl, u, hu, k, hk, hE⟩
        · rw [h1] at f1
          exact ⟨u, langFrom_eps f1 (langFrom_eps f2 hu), k, by omega, hE⟩
        · exact ⟨t.first :: u, langFrom_step h1 f1 (langFrom_eps f2 hu), k, by omega, .keep _ hE⟩
      · exfalso
        have := layer_lt hq hi
        omega
    · rintro j t ht hx i p hi hp hy
      obtain ⟨e1, e2⟩ := mid he ht hx
      exact .inl ⟨e1.symm, ih1 (i + 1) p hi hp (e2.trans hy)⟩
  | @step x c y w z hne he hr ih =>
    obtain ⟨ih1, ih2⟩ := ih hz
    constructor
    · rintro i q hi hq rfl
      rcases (ha.edge _ _ _).1 he with ⟨i', q', p, e1, ⟨hi', rfl, e2⟩ | ⟨hi', rfl, e2⟩⟩ | ⟨j, t, hj, ⟨e1, e2, e3⟩ | ⟨e1, -⟩⟩
      · obtain ⟨rfl, rfl⟩ := split_unique hq (h.edge_lt e2).1 e1
        obtain ⟨u, hu, j, hj, hE⟩ := ih1 i p hi (h.edge_lt e2).2.2 rfl
        exact ⟨c :: u, langFrom_step hne e2 hu, j, hj, .keep c hE⟩
      · obtain ⟨rfl, rfl⟩ := split_unique hq (h.cross_lt e2).1 e1
        obtain ⟨u, hu, j, hj, hE⟩ := ih1 (i + 1) p hi' (h.cross_lt e2).2 rfl
        have ins : f.Busy q → ∀ {u}, u ∈ f.LangFrom q → tail = true ∨ u ≠ [] := by
          intro hb u hu
          rcases htl with ht | ht
          · exact .inl ht
          · exact .inr fun e => ht q hb (e ▸ hu)
        rcases e2.2 with ⟨⟨l, hl⟩, -⟩ | ⟨rfl, hb⟩
        · have hb : f.Busy q := by
            obtain ⟨S, hS, -⟩ := mem_dst.1 hl
            exact ⟨l, by rw [hS]; rfl⟩
          have hl := hc.edge_of_dst h hl
          by_cases h257 : l = 257
          · subst h257
            have hu' := langFrom_eps hl hu
            exact ⟨u, hu', j + 1, by omega, .add c (ins hb hu') hE⟩
          · exact ⟨l :: u, langFrom_step h257 hl hu, j + 1, by omega, .replace l c hE⟩
        · exact ⟨u, hu, j + 1, by omega, .add c (ins hb hu) hE⟩
      · obtain ⟨i', hi', q', r, p, hp, e4, e5⟩ := (ha.swp t).1 (List.mem_of_getElem? hj)
        obtain ⟨rfl, rfl⟩ := split_unique hq (h.dst_lt hp.1).1 (e1.trans e4)
        have f1 := hc.edge_of_dst h hp.1
        have f2 := hc.edge_of_dst h hp.2.1
        rw [← e2] at f2
        rcases ih2 j t hj e3 i p hi' (h.dst_lt hp.2.1).2.2 e5 with ⟨h1, u, hu, k, hk, hE⟩ | ⟨h1, w', rfl, u, hu, k, hk, hE⟩
        · rw [h1] at f1
          exact ⟨c :: u, langFrom_eps f1 (langFrom_step hne f2 hu), k, by omega, .keep c hE⟩
        · exact ⟨t.first :: c :: u, langFrom_step h1 f1 (langFrom_step hne f2 hu), k + 1, by omega, .swap _ _ rfl hE⟩
      · exfalso
        have := layer_lt hq hi
        omega
    · rintro j t ht hx i p hi hp hy
      obtain ⟨e1, e2⟩ := mid he ht hx
      exact .inr ⟨e1 ▸ hne, w, by rw [e1], ih1 (i + 1) p hi hp (e2.trans hy)⟩

theorem Approx.lift (ha : Approx f d g ts) {q p i : Nat} {w : List Nat} (hi : i ≤ d) (hr : Run f.Edge q w p) :
    Run g.Edge (q + i * f.size) w (p + i * f.size) := by
  have he : ∀ {q c p}, f.Edge q c p → g.Edge (q + i * f.size) c (p + i * f.size) := fun he =>
    (ha.edge _ _ _).2 (.inl ⟨i, _, _, rfl, .inl ⟨hi, rfl, he⟩⟩)
  induction hr with
  | refl q => exact .refl _
  | eps e _ ih => exact .eps (he e) ih
  | step hc e _ ih => exact .step hc (he e) ih

theorem Approx.cross (ha : Approx f d g ts) {q c p i : Nat} (hi : i < d) (hx : f.Cross q c p) :
    g.Edge (q + i * f.size) c (p + (i + 1) * f.size) := (ha.edge _ _ _).2 (.inl ⟨i, _, _, rfl, .inr ⟨hi, rfl, hx⟩⟩)

/-- A text obtained by edits is accepted. -/
theorem Approx.complete (h : f.WF) (ha : Approx f d g ts) (hns : f.sparsed = false) {swaps tail : Bool}
    (hs : swaps = true → f.Raw ∧ ∀ q p, ¬ f.Edge q 257 p) (htl : tail = true → ∀ q ∈ f.finals, f.Busy q)
    {k : Nat} {u w : List Nat} (hE : Edits swaps tail k u w) : IsWord w → ∀ q i, i + k ≤ d → u ∈ f.LangFrom q →
      ∃ z ∈ g.finals, Run g.Edge (q + i * f.size) w z := by
  have cinv : ∀ {q c u}, c :: u ∈ f.LangFrom q → ∃ q1 q2, Run f.Edge q [] q1 ∧ f.Edge q1 c q2 ∧ c ≠ 257 ∧ u ∈ f.LangFrom q2 := by
    rintro q c u ⟨p, hp, hr⟩
    obtain ⟨q1, q2, h1, h2, h3, h4⟩ := hr.cons_inv
    exact ⟨q1, q2, by assumption, by assumption, by assumption, p, hp, by assumption⟩
  have edge_leads : ∀ {q c p}, f.Edge q c p → f.Leads q p := fun he => ⟨_, edge_iff.1 he⟩
  have edge_busy : ∀ {q c p}, f.Edge q c p → f.Busy q := by
    intro q c p he
    obtain ⟨S, hS, -⟩ := mem_dst.1 (edge_iff.1 he)
    exact ⟨_, by rw [hS]; rfl⟩
  have go : ∀ {q q1 i : Nat} {w z}, i ≤ d → Run f.Edge q [] q1 → Run g.Edge (q1 + i * f.size) w z → Run g.Edge (q + i * f.size) w z := by
    intro q q1 i w z hi h1 h2
    exact (ha.lift hi h1).trans h2
  induction hE with
  | done =>
    rintro - q i hi ⟨p, hp, hr⟩
    exact ⟨p + i * f.size, (ha.fin _).2 ⟨i, by omega, p, hp, rfl⟩, ha.lift (by omega) hr⟩
  | keep c _ ih =>
    intro hw q i hi hu
    obtain ⟨q1, q2, h1, h2, h3, h4⟩ := cinv hu
    obtain ⟨z, hz, hr⟩ := ih (fun x hx => hw x (by simp [hx])) q2 i hi h4
    exact ⟨z, hz, go (by omega) h1 (.step h3 ((ha.edge _ _ _).2 (.inl ⟨i, _, _, rfl, .inl ⟨by omega, rfl, h2⟩⟩)) hr)⟩
  | replace c c' _ ih =>
    intro hw q i hi hu
    obtain ⟨q1, q2, h1, h2, h3, h4⟩ := cinv hu
    have hc' := hw c' (by simp)
    by_cases he : f.Edge q1 c' q2
    · obtain ⟨z, hz, hr⟩ := ih (fun x hx => hw x (by simp [hx])) q2 i (by omega) h4
      exact ⟨z, hz, go (by omega) h1 (.step hc'.2 ((ha.edge _ _ _).2 (.inl ⟨i, _, _, rfl, .inl ⟨by omega, rfl, he⟩⟩)) hr)⟩
    · have he : ¬ f.Edge q1 (f.probe c') q2 := by unfold probe; rw [if_neg (by simp [hns])]; exact he
      obtain ⟨z, hz, hr⟩ := ih (fun x hx => hw x (by simp [hx])) q2 (i + 1) (by omega) h4
      exact ⟨z, hz, go (by omega) h1 (.step hc'.2 (ha.cross (by omega) ⟨hc'.1, .inl ⟨edge_leads h2, .inl he⟩⟩) hr)⟩
  | drop c _ ih =>
    intro hw q i hi hu
    obtain ⟨q1, q2, h1, h2, h3, h4⟩ := cinv hu
    obtain ⟨z, hz, hr⟩ := ih hw q2 (i + 1) (by omega) h4
    exact ⟨z, hz, go (by omega) h1 (.eps (ha.cross (by omega) ⟨by decide, .inl ⟨edge_leads h2, .inr rfl⟩⟩) hr)⟩
  | @add k u w c hne _ ih =>
    intro hw q i hi hu
    have hc' := hw c (by simp)
    -- a busy state before the rest of the word
    have : ∃ q1, Run f.Edge q [] q1 ∧ f.Busy q1 ∧ u ∈ f.LangFrom q1 := by
      cases u with
      | nil =>
        have ht : tail = true := by simpa using hne
        obtain ⟨p, hp, hr⟩ := hu
        exact ⟨p, hr, htl ht p hp, p, hp, .refl _⟩
      | cons b u =>
        obtain ⟨q1, q2, h1, h2, h3, h4⟩ := cinv hu
        exact ⟨q1, h1, edge_busy h2, langFrom_step h3 h2 h4⟩
    obtain ⟨q1, h1, h2, h3⟩ := this
    obtain ⟨z, hz, hr⟩ := ih (fun x hx => hw x (by simp [hx])) q1 (i + 1) (by omega) h3
    exact ⟨z, hz, go (by omega) h1 (.step hc'.2 (ha.cross (by omega) ⟨hc'.1, .inr ⟨rfl, h2⟩⟩) hr)⟩
  | @swap k u w a b hsw _ ih =>
    intro hw q i hi hu
    obtain ⟨hraw, hne⟩ := hs hsw
    have stay : ∀ {q q1}, Run f.Edge q [] q1 → q1 = q := by
      intro q q1 hr
      cases hr with
      | refl => rfl
      | eps e _ => exact absurd e (hne _ _)
    obtain ⟨q1, q2, h1, h2, h3, h4⟩ := cinv hu
    obtain rfl := stay h1
    obtain ⟨q3, q4, h5, h6, h7, h8⟩ := cinv h4
    obtain rfl := stay h5
    have hd1 : q3 ∈ f.dst q1 a := by have := edge_iff.1 h2; rwa [key_raw hraw] at this
    have hd2 : q4 ∈ f.dst q3 b := by have := edge_iff.1 h6; rwa [key_raw hraw] at this
    by_cases hlp : q4 ≠ q1 ∨ q3 ≠ q1
    · obtain ⟨z, hz, hr⟩ := ih (fun x hx => hw x (by simp [hx])) q4 (i + 1) (by omega) h8
      let t : Swp := ⟨q1 + i * f.size, b, a, q4 + (i + 1) * f.size⟩
      have ht : t ∈ ts := (ha.swp t).2 ⟨i, by omega, q1, q3, q4, ⟨hd1, hd2, hlp⟩, rfl, rfl⟩
      obtain ⟨j, hj⟩ := List.mem_iff_getElem?.1 ht
      exact ⟨z, hz, .step h7 ((ha.edge _ _ _).2 (.inr ⟨j, t, hj, .inl ⟨rfl, rfl, rfl⟩⟩))
        (.step h3 ((ha.edge _ _ _).2 (.inr ⟨j, t, hj, .inr ⟨rfl, rfl, rfl⟩⟩)) hr)⟩
    · obtain ⟨rfl, rfl⟩ : q4 = q1 ∧ q3 = q1 := by
        constructor
        · by_contra h; exact hlp (.inl h)
        · by_contra h; exact hlp (.inr h)
      obtain ⟨z, hz, hr⟩ := ih (fun x hx => hw x (by simp [hx])) q3 i (by omega) h8
      have he : ∀ {c}, f.Edge q3 c q3 → g.Edge (q3 + i * f.size) c (q3 + i * f.size) := fun he =>
        (ha.edge _ _ _).2 (.inl ⟨i, _, _, rfl, .inl ⟨by omega, rfl, he⟩⟩)
      exact ⟨z, hz, .step h7 (he h6) (.step h3 (he h2) hr)⟩

end Fsm
end Pire
