import Verif.Proofs.GreedySmall
import Verif.Props.HalfFinal

/-!
# C57: greedy counters count leftmost-longest matches

`HalfFinalFsm::MakeGreedyCounter` turns a regexp into a counter of its matches, where at each place the longest match is taken and the search
goes on behind it. The counter is exact only for some regexps; what it does for others is shown at the end.
-/

namespace Pire.Props
open Pire Pire.Spec Multi HalfFinal Greedy

section
variable {P : Policy} {base : Nat} {f g : Fsm} {depth : Nat}

/-- Determining with the depth `d` succeeds: there are at most 200001 counting states. -/
def Settles (f : Fsm) (d : Nat) : Prop := ∃ k, f.canonize 0 = some k ∧ (HalfFinal.Greedy.task (HalfFinal.Greedy.doubled k.removeDeadEnds) d).run 200000 ≠ none

theorem doubled_of {k : Fsm} (h : k.Det) : Doubled k.removeDeadEnds (HalfFinal.Greedy.doubled k.removeDeadEnds) :=
  doubled_spec h.wf.removeDeadEnds (Fsm.Coh.removeDeadEnds h.coh) fun _ _ _ _ e e' => h.edge_unique (rde_mono k _ _ _ e) (rde_mono k _ _ _ e')

theorem cond_of {d : Fsm} {L : Language Nat} {st : List Nat → Option Nat} (hs : Sim d L st) (h0 : [] ∉ L) {D : Nat} (hpos : 0 < D) (hlt : D ≤ 1000)
    (hd : WithinDepth L 1 ∨ (WithinDepth L D ∧ NoSwallowing L ∧ NoReturn L)) : Cond d L st D := by
  have hlater : ∀ j x, WithinDepth L j → st x ≠ none → later L x < j := by
    intro j x hw hx
    obtain ⟨q, hq⟩ := Option.ne_none_iff_exists'.1 hx
    exact hw x _ (hs.viable x q hq) (laterMatches_iff.2 rfl)
  rcases hd with hd | ⟨hd, hn, hr⟩
  · have hz : ∀ x, st x ≠ none → later L x = 0 := fun x hx => by have := hlater 1 x hd hx; omega
    exact ⟨h0, by omega, fun x hx => by rw [hz x hx]; exact hpos, fun x _ hx _ _ => hz x hx, fun x _ _ y hy => hz y hy⟩
  · refine ⟨h0, by omega, fun x hx => hlater D x hd hx, fun x c hx hm hh => ?_, fun x hne hx => ?_⟩
    · exact hn x c _ hm (fun h => noMatch_iff.1 h hh) (laterMatches_iff.2 rfl)
    · obtain ⟨v, hv⟩ := hr x hne (hs.viable x _ hx)
      exact absurd (hs.same x [] _ v hx hs.nil) hv

/-- What `MakeGreedyCounter` leaves. -/
theorem greedy_built {sim : Bool} (h : f.Good) (hg : makeGreedyCounter sim f depth = some g) (hset : Settles f (if sim then 1 else depth) ∨ Settles f 1) :
    ∃ (k : Fsm) (D : Nat) (b : Fsm), f.canonize 0 = some k ∧ k.Det ∧ k.Lang = f.Lang ∧ Doubled k.removeDeadEnds (HalfFinal.Greedy.doubled k.removeDeadEnds) ∧
      Built (HalfFinal.Greedy.doubled k.removeDeadEnds) D b ∧ (∀ q, b.size ≤ q → b.tags q = none) ∧
      g = (if sim then b.minimize else b).removeDeadEnds ∧
      ((D = (if sim then 1 else depth)) ∨ (D = 1 ∧ ¬ Settles f (if sim then 1 else depth))) := by
  unfold makeGreedyCounter at hg
  generalize (if sim = true then 1 else depth) = E at hg hset ⊢
  cases hk : f.canonize 0 with
  | none => rw [hk] at hg; cases hg
  | some k =>
    rw [hk] at hg
    simp only [Option.map_some, Option.some.injEq] at hg
    obtain ⟨hdet, -, hl, -⟩ := Fsm.canonize_spec h hk
    have hd := doubled_of hdet
    have main : ∀ D r, (HalfFinal.Greedy.task (HalfFinal.Greedy.doubled k.removeDeadEnds) D).run 200000 = some r →
        ∃ b, Built (HalfFinal.Greedy.doubled k.removeDeadEnds) D b ∧ (∀ q, b.size ≤ q → b.tags q = none) ∧
          b = Fsm.swapFrom k.removeDeadEnds (HalfFinal.Greedy.accept (HalfFinal.Greedy.doubled k.removeDeadEnds).letters r.1 r.2) := by
      intro D r hr
      have hspec := (DTask.run_spec (t := HalfFinal.Greedy.task (HalfFinal.Greedy.doubled k.removeDeadEnds) D) hd.let_wf 200000).1 r.1 r.2 hr
      refine ⟨_, (accept_spec hd hspec).swap k.removeDeadEnds, fun q hq => ?_, rfl⟩
      obtain ⟨a1, -, -, -, -, -, a7, -⟩ := accept_fields (HalfFinal.Greedy.doubled k.removeDeadEnds).letters r.1 r.2
      have hq' : r.1.length ≤ q := by rw [← a1]; exact hq
      show (HalfFinal.Greedy.accept _ r.1 r.2).tags q = none
      rw [a7, List.getElem?_eq_none hq']; rfl
    unfold HalfFinal.Greedy.determine at hg
    simp only at hg
    cases h1 : (HalfFinal.Greedy.task (HalfFinal.Greedy.doubled k.removeDeadEnds) E).run 200000 with
    | some r =>
      obtain ⟨b, b1, b2, b3⟩ := main E r h1
      refine ⟨k, E, b, rfl, hdet, hl, hd, b1, b2, ?_, Or.inl rfl⟩
      rw [h1] at hg
      simp only at hg
      rw [← hg, ← b3]
    | none =>
      have hno : ¬ Settles f E := by
        rintro ⟨k', hk', hr⟩
        rw [hk] at hk'; cases hk'
        exact hr h1
      rcases hset with hset | ⟨k', hk', hr⟩
      · exact absurd hset hno
      · rw [hk] at hk'; cases hk'
        obtain ⟨r, hr⟩ := Option.ne_none_iff_exists'.1 hr
        obtain ⟨b, b1, b2, b3⟩ := main 1 r hr
        refine ⟨k, 1, b, rfl, hdet, hl, hd, b1, b2, ?_, Or.inr ⟨rfl, hno⟩⟩
        rw [h1, hr] at hg
        simp only at hg
        rw [← hg, ← b3]

/-- `MakeGreedyCounter(true)` (the default). If no match lies inside an unfinished one, the counter is right at every moment, before
the end mark and behind it, and never dead. -/
theorem C57_simplified (hP : Typedef P) (h : f.Good) (hg : makeGreedyCounter true f depth = some g) (hset : Settles f 1)
    (h0 : [] ∉ f.Lang) (hne : ∃ v ∈ f.Lang, EndMark ∉ v) (hd : WithinDepth f.Lang 1) (hal : base % 8 = 0) (hb : base ≤ 2 ^ 63)
    {w : List Nat} (hw : IsWord w) (hE : EndMark ∉ w) {k : Nat} (hk : GreedyMatches f.Lang w k) (hlt : k < 2 ^ 64) :
    ((HalfFinal.scn P (ofHalfFinal P base g)).after (HalfFinal.scn P (ofHalfFinal P base g)).initial w).result 0 = k ∧
    ((HalfFinal.scn P (ofHalfFinal P base g)).after (HalfFinal.scn P (ofHalfFinal P base g)).initial (w ++ [EndMark])).result 0 = k ∧
    (HalfFinal.scn P (ofHalfFinal P base g)).dead ((HalfFinal.scn P (ofHalfFinal P base g)).after (HalfFinal.scn P (ofHalfFinal P base g)).initial w) = false := by
  obtain ⟨c, D, b, -, hdet, hl, hdb, hbt, hout, rfl, hD⟩ := greedy_built h hg (Or.inl (by rw [if_pos rfl]; exact hset))
  have hD1 : D = 1 := by rcases hD with h | h; exacts [h, h.1]
  subst hD1
  rw [← hl] at h0 hne hd hk
  obtain ⟨v, hv, hvE⟩ := hne
  have hs := sim_of hdet ⟨v, hv⟩ hdb
  have hC := cond_of hs h0 (D := 1) (by omega) (by omega) (Or.inl hd)
  have hvp : Plain v := ⟨hdet.wf.lang_word hv, hvE⟩
  have hwE : IsWord (w ++ [EndMark]) := fun x hx => by
    rcases List.mem_append.1 hx with hx | hx
    · exact hw x hx
    · rw [List.mem_singleton.1 hx]; decide
  obtain ⟨s1, s2⟩ := sum_le hs hC ⟨hw, hE⟩
  have s3 := sum_end hs hC ⟨hw, hE⟩
  rw [← greedy_unique hk] at s1 s2 s3
  obtain ⟨r1, r2⟩ := simple_counter (base := base) hP.real hs hC hv hvp hbt hout hal hb hw
  obtain ⟨r3, -⟩ := simple_counter (base := base) hP.real hs hC hv hvp hbt hout hal hb hwE
  refine ⟨?_, ?_, r2⟩
  · refine r1.trans ?_
    rw [Nat.mod_eq_of_lt (by omega)]; omega
  · refine r3.trans ?_
    rw [s3, Nat.mod_eq_of_lt hlt]

/-- `MakeGreedyCounter(false)`. Behind the end mark the counter is right if matches inside an unfinished one are less than `depth`
(`MaxCountDepth`, 10 by default), no match that has been found becomes part of a longer one, and matching does not begin anew inside
a match. Before the end mark less than `depth` matches may be missing. -/
theorem C57_full (hP : Typedef P) (h : f.Good) (hg : makeGreedyCounter false f depth = some g) (hset : Settles f depth) (hpos : 0 < depth) (hmax : depth ≤ 1000)
    (h0 : [] ∉ f.Lang) (hne : ∃ v ∈ f.Lang, EndMark ∉ v)
    (hd : WithinDepth f.Lang 1 ∨ (WithinDepth f.Lang depth ∧ NoSwallowing f.Lang ∧ NoReturn f.Lang)) (hal : base % 8 = 0) (hb : base ≤ 2 ^ 63)
    {w : List Nat} (hw : IsWord w) (hE : EndMark ∉ w) {k : Nat} (hk : GreedyMatches f.Lang w k) (hlt : k < 2 ^ 64) :
    ((HalfFinal.scn P (ofHalfFinal P base g)).after (HalfFinal.scn P (ofHalfFinal P base g)).initial (w ++ [EndMark])).result 0 = k ∧
    ((HalfFinal.scn P (ofHalfFinal P base g)).after (HalfFinal.scn P (ofHalfFinal P base g)).initial w).result 0 ≤ k ∧
    k < ((HalfFinal.scn P (ofHalfFinal P base g)).after (HalfFinal.scn P (ofHalfFinal P base g)).initial w).result 0 + depth := by
  obtain ⟨c, D, b, -, hdet, hl, hdb, hbt, hout, rfl, hD⟩ := greedy_built h hg (Or.inl (by simpa using hset))
  have hD1 : D = depth := by
    rcases hD with h | h
    · simpa using h
    · exact absurd (by simpa using hset) h.2
  subst hD1
  rw [← hl] at h0 hne hd hk
  obtain ⟨v, hv, hvE⟩ := hne
  have hs := sim_of hdet ⟨v, hv⟩ hdb
  have hC := cond_of hs h0 hpos hmax hd
  have hvp : Plain v := ⟨hdet.wf.lang_word hv, hvE⟩
  have hwE : IsWord (w ++ [EndMark]) := fun x hx => by
    rcases List.mem_append.1 hx with hx | hx
    · exact hw x hx
    · rw [List.mem_singleton.1 hx]; decide
  obtain ⟨s1, s2⟩ := sum_le hs hC ⟨hw, hE⟩
  have s3 := sum_end hs hC ⟨hw, hE⟩
  rw [← greedy_unique hk] at s1 s2 s3
  have r1 : ((HalfFinal.scn P (ofHalfFinal P base b.removeDeadEnds)).after (HalfFinal.scn P (ofHalfFinal P base b.removeDeadEnds)).initial w).result 0 = _ :=
    full_counter (base := base) hP.real hs hC hmax hv hvp hbt hout hal hb hw
  have r3 : ((HalfFinal.scn P (ofHalfFinal P base b.removeDeadEnds)).after (HalfFinal.scn P (ofHalfFinal P base b.removeDeadEnds)).initial (w ++ [EndMark])).result 0 = _ :=
    full_counter (base := base) hP.real hs hC hmax hv hvp hbt hout hal hb hwE
  rw [Nat.mod_eq_of_lt (by omega)] at r1
  rw [s3, Nat.mod_eq_of_lt hlt] at r3
  show _ ∧ ((HalfFinal.scn P (ofHalfFinal P base b.removeDeadEnds)).after (HalfFinal.scn P (ofHalfFinal P base b.removeDeadEnds)).initial w).result 0 ≤ k ∧ _
  refine ⟨r3, ?_, ?_⟩
  · rw [r1]; exact s1
  · show k < ((HalfFinal.scn P (ofHalfFinal P base b.removeDeadEnds)).after (HalfFinal.scn P (ofHalfFinal P base b.removeDeadEnds)).initial w).result 0 + _
    rw [r1]; omega

/-- The hypothesis `Settles` holds for small regexps: `k` is the canonical automaton, less than `d` matches lie inside an unfinished one. -/
theorem C57_small_settles {k : Fsm} {D d : Nat} (h : f.Good) (hk : f.canonize 0 = some k) (h0 : [] ∉ f.Lang) (hne : ∃ v, v ∈ f.Lang) (hpos : 0 < D) (hmax : D ≤ 1000)
    (hc : WithinDepth f.Lang 1 ∨ (WithinDepth f.Lang D ∧ NoSwallowing f.Lang ∧ NoReturn f.Lang)) (hd : WithinDepth f.Lang d)
    (hroom : (k.size * (d * 2) + 1) ^ k.size * ((d + 1) * d) ≤ 200001) : Settles f D := by
  obtain ⟨hdet, -, hl, -⟩ := Fsm.canonize_spec h hk
  rw [← hl] at h0 hne hc hd
  have hdb := doubled_of hdet
  have hs := sim_of hdet hne hdb
  refine ⟨k, hk, settles_of hdb hs (cond_of hs h0 hpos hmax hc) (fun x hx => ?_) (fun x q hq => ?_) hroom⟩
  · obtain ⟨q, hq⟩ := Option.ne_none_iff_exists'.1 hx
    exact hd x _ (hs.viable x q hq) (laterMatches_iff.2 rfl)
  · have hr := stOf_some hq
    rw [(Fsm.removeDeadEnds_fields k).2.1] at hr
    exact hdet.wf.run_lt (hr.mono (rde_mono k)) hdet.wf.init_lt

end

end Pire.Props
