import Verif.Proofs.CapturePrefer

/-!
# Searching with a chain (C60): from the leftmost place where the chain matches, the preferred match is reported
-/

namespace Pire
namespace Capture
open Spec

variable {t : Table} {n : Nat} {J : Nat → Nat → List (Nat × Nat)} {F : Nat → Bool} {E : Nat → Nat → Nat → Prop} {A : Nat → Nat → Nat} {G : Nat → Prop} {B : Nat → Prop}
  {L N ini : Nat} {w : List Nat}

theorem settled_dead (hE : Edges n J E A) {used : Nat → Bool} (h : Settled n J (Via E N w) used) : ∀ q, used q = true → ¬ Run E q w N := by
  intro q hq hr
  obtain ⟨p, h1, h2⟩ := run_via hr
  have key : ∀ v, Run E q v p → v = [] → used q = true → used p = true := by
    intro v hv
    clear hr h1 hq
    induction hv with
    | refl => exact fun _ h => h
    | @eps q q' w p he _ ih =>
      intro hv hq
      refine ih h2 hv ?_
      obtain ⟨h3, -, h4⟩ := h q hq
      exact h4 (q', A q q') ((hE.mem q h3 257 (by omega) _).2 ⟨he, rfl⟩)
    | step => intro hv; cases hv
  exact (h p (key [] h1 rfl hq)).2.1 h2

/-- The chain in its surroundings. -/
structure Hunt (n : Nat) (J : Nat → Nat → List (Nat × Nat)) (F : Nat → Bool) (E : Nat → Nat → Nat → Prop) (A : Nat → Nat → Nat) (G B : Nat → Prop) (L N ini : Nat) (es : List Elem) : Prop where
  sur : Surrounded n J F E A L N ini
  chain : Chained n J E A G B L N
  lt : ini < L
  ent : Ent E A G B es (ini + 1) ini

variable {es : List Elem}

theorem Hunt.list (h : Hunt n J F E A G B L N ini es) : J L 257 = [(ini, 0), (L, 0)] := by
  refine sorted_two (h.chain.sorted L h.sur.loop_lt 257 (by omega)) h.lt fun z => ?_
  rw [h.chain.edges.mem L h.sur.loop_lt 257 (by omega), h.sur.loop_out]
  constructor
  · rintro ⟨h1, h2⟩
    rcases h.sur.loop_eps 257 rfl _ h1 with h3 | h3
    · exact .inr (Prod.ext h3 h2)
    · exact .inl (Prod.ext h3 h2)
  · rintro (rfl | rfl)
    · exact ⟨h.sur.loop_ini 257 rfl, rfl⟩
    · exact ⟨h.sur.loop 257 (by omega), rfl⟩

theorem Hunt.letter (h : Hunt n J F E A G B L N ini es) {c : Nat} (hc : c < 264) (hc' : c ≠ 257) : J L c = [(L, 0)] := by
  refine sorted_one (h.chain.sorted L h.sur.loop_lt c hc) fun z => ?_
  rw [h.chain.edges.mem L h.sur.loop_lt c hc, h.sur.loop_out]
  constructor
  · rintro ⟨h1, h2⟩
    exact Prod.ext (h.sur.loop_only c _ hc' h1) h2
  · rintro rfl
    exact ⟨h.sur.loop c hc, rfl⟩

/-- One letter in the waiting state. -/
theorem loop_pick (h : Hunt n J F E A G B L N ini es) (hT : TRepr t n J F) {c : Nat} (hc : c < 264) (hc' : c ≠ 257) (hw : ∀ c ∈ w, c < 256) {pos fuel : Nat} {used : Nat → Bool}
    {r : Groups × (Nat → Bool)} (hu : ∀ q, used q = true → ¬ Run E q w N) (hL : Run E L w N) (hxp : t.explore fuel (noGroups, used) (Single.mk0 L) c pos = some r) :
    (¬ Run E ini w N → Via E N w L → First (Via E N w) r.1.all (Single.mk0 L)) ∧
    ∀ ns, Best (itemsOf es) ns w → ∃ y, First (Via E N w) r.1.all y ∧ Stand E A G B N (begAt npos es ns pos) (finAt npos es ns pos) pos w y := by
  have hLn : (Single.mk0 L).num < n := h.sur.loop_lt
  obtain ⟨r1, v1, rfl⟩ := explore_one hT hLn hc (h.letter hc hc') hxp
  rw [advance_quiet rfl rfl] at v1
  have hmk : (⟨L, (Single.mk0 L).beg, (Single.mk0 L).fin⟩ : Single) = Single.mk0 L := rfl
  rw [hmk] at v1
  rcases v1 with ⟨hu', -⟩ | ⟨-, fuel', r2, v1, rfl⟩
  · exact absurd hL (hu L hu')
  have hq := explore_quiet h.sur h.chain.edges hT pos fuel' _ _ _ hLn (.inl rfl) v1
  obtain ⟨r3, r4, v3, v4, rfl⟩ := explore_two hT hLn (by omega) h.list v1
  rw [advance_quiet rfl rfl] at v3 v4
  have hini : ini < n := by have := h.lt; have := h.sur.loop_lt; omega
  have hused : r3.2 L = true := by
    rcases v3 with ⟨-, rfl⟩ | ⟨-, fuel3, r5, v3, rfl⟩
    · simp [Single.mk0]
    · have hmono : ∀ (f : Nat) (acc r : Groups × (Nat → Bool)) (cur : Single) (c : Nat), t.explore f acc cur c pos = some r → ∀ q, acc.2 q = true → r.2 q = true := by
        intro f
        induction f with
        | zero => intro acc r cur c hx; cases hx
        | succ f ih =>
          intro acc r cur c hx q hq
          unfold Table.explore at hx
          rw [Option.bind_eq_some_iff] at hx
          obtain ⟨trs, -, hx⟩ := hx
          induction trs generalizing acc with
          | nil => injection hx with hx; subst hx; exact hq
          | cons tr trs iht =>
            rw [List.foldlM_cons, Option.bind_eq_bind, Option.bind_eq_some_iff] at hx
            obtain ⟨r', h1, h2⟩ := hx
            refine iht r' ?_ h2
            split at h1
            · split at h1
              · injection h1 with h1; subst h1; exact hq
              · rw [Option.map_eq_some_iff] at h1
                obtain ⟨r5, h1, rfl⟩ := h1
                refine ih _ _ _ _ h1 q ?_
                by_cases hqt : q = tr.1
                · subst hqt; simp
                · dsimp only; rw [Function.update_of_ne hqt]; exact hq
            · cases h1
      refine hmono _ _ _ _ _ v3 L ?_
      have : L ≠ ini := by have := h.lt; omega
      dsimp only
      rw [Function.update_of_ne this]
      simp [Single.mk0]
  obtain rfl : r4 = (noGroups, r3.2) := by
    rcases v4 with ⟨-, e4⟩ | ⟨h4, -⟩
    · exact e4
    · change r3.2 L = false at h4
      rw [hused] at h4; cases h4
  dsimp only at hq ⊢
  rw [insert_none, none_insert rfl rfl] at hq
  rw [insert_none, none_insert rfl rfl, none_insert rfl rfl]
  have hall : (r3.1.push (Single.mk0 L)).all = r3.1.all ++ [Single.mk0 L] := by
    have : r3.1.greedy = [] := hq
    simp [Groups.push, Groups.all, this]
  rw [hall]
  constructor
  · intro hr hV
    refine First.after (fun z hz hv => hr ?_) (First.head hV _)
    exact visit_run h.chain.edges hT hw (s := ⟨ini, npos, npos⟩) hini v3 hz hv
  · intro ns hb
    have hrun : Run E ini w N := (h.chain.run es _ _ h.ent w hw).2 ⟨ns, hb.1⟩
    have hne : ini ≠ L := by have := h.lt; omega
    rcases v3 with ⟨hu', -⟩ | ⟨-, fuel3, r5, v3, rfl⟩
    · have hu' : Function.update used L true ini = true := hu'
      rw [Function.update_of_ne hne] at hu'
      exact absurd hrun (hu ini hu')
    · obtain ⟨y, hy, hst⟩ := picks h.chain hT es (ini + 1) ini h.ent (by omega) hne w hw _ ⟨ini, npos, npos⟩ ns pos fuel3 r5 rfl (by
        intro q a1 a2 a3 a4
        dsimp only at a4
        rw [Function.update_of_ne a2] at a4
        have a4 : Function.update used L true q = true := a4
        rw [Function.update_of_ne a1] at a4
        exact hu q a4) hb v3
      exact ⟨y, hy.append _, hst⟩

theorem Hunt.waits (h : Hunt n J F E A G B L N ini es) {W : List Nat} (hW : ∀ c ∈ W, c < 256) {i : Nat} (hi : Run E ini (W.drop i) N) : ∀ k ≤ i, i ≤ W.length → Run E L (W.drop k) N := by
  intro k hk hil
  obtain ⟨d, rfl⟩ := Nat.exists_eq_add_of_le hk
  induction d generalizing k with
  | zero => exact .eps (h.sur.loop_ini 257 rfl) hi
  | succ d ih =>
    have hlt : k < W.length := by omega
    rw [List.drop_eq_getElem_cons hlt]
    have hc := hW W[k] (List.getElem_mem hlt)
    exact .step (by omega) (h.sur.loop _ (by omega)) (ih (k + 1) (by rwa [show k + 1 + d = k + (d + 1) by omega]) (by omega) (by omega))

/-- After `k` letters. -/
theorem track (h : Hunt n J F E A G B L N ini es) (hT : TRepr t n J F) (hst : t.start = L) {W : List Nat} (hW : ∀ c ∈ W, c < 256) (hlen : W.length < npos) {i : Nat} (hil : i ≤ W.length)
    (hmin : ∀ k < i, ¬ Run E ini (W.drop k) N) {ns : List Nat} (hb : Best (itemsOf es) ns (W.drop i)) : ∀ k ≤ W.length, ∃ s, t.run (W.take k) = some s ∧ s.pos = k ∧ Fair n E L ini s.states ∧
      ∃ y, First (Via E N (W.drop k)) s.states y ∧ ((k < i ∧ y = Single.mk0 L) ∨ (i ≤ k ∧ Stand E A G B N (begAt npos es ns i) (finAt npos es ns i) k (W.drop k) y)) := by
  have hrun : Run E ini (W.drop i) N := (h.chain.run es _ _ h.ent _ fun c hc => hW c (List.mem_of_mem_drop hc)).2 ⟨ns, hb.1⟩
  have hbytes : ∀ k, ∀ c ∈ W.drop k, c < 256 := fun k c hc => hW c (List.mem_of_mem_drop hc)
  -- the waiting thread
  have wait : ∀ k ≤ i, ∀ (c fuel : Nat) (used : Nat → Bool) (r : Groups × (Nat → Bool)), c < 264 → c ≠ 257 → (∀ q, used q = true → ¬ Run E q (W.drop k) N) →
      t.explore fuel (noGroups, used) (Single.mk0 L) c k = some r →
      ∃ y, First (Via E N (W.drop k)) r.1.all y ∧ ((k < i ∧ y = Single.mk0 L) ∨ (i ≤ k ∧ Stand E A G B N (begAt npos es ns i) (finAt npos es ns i) k (W.drop k) y)) := by
    intro k hk c fuel used r hc hc' hu hx
    obtain ⟨h1, h2⟩ := loop_pick h hT hc hc' (hbytes k) hu (h.waits hW hrun k hk hil) hx
    rcases Nat.lt_or_eq_of_le hk with hlt | rfl
    · refine ⟨Single.mk0 L, h1 (hmin k hlt) ?_, .inl ⟨hlt, rfl⟩⟩
      have hkl : k < W.length := by omega
      rw [List.drop_eq_getElem_cons hkl]
      have hck := hW W[k] (List.getElem_mem hkl)
      exact ⟨L, h.sur.loop _ (by omega), h.waits hW hrun (k + 1) hlt hil⟩
    · obtain ⟨y, hy, hs⟩ := h2 ns hb
      exact ⟨y, hy, .inr ⟨le_rfl, hs⟩⟩
  intro k
  induction k with
  | zero =>
    intro _
    obtain ⟨s, r, e1, e2, hf, e3, hfirst⟩ := init_first h.sur h.chain.edges hT hst (hbytes 0)
    obtain ⟨y, hy, hs⟩ := wait 0 (by omega) 258 _ _ r (by omega) (by omega) (fun q hq => by cases hq) e3
    refine ⟨s, ?_, e2, hf, y, hfirst y hy, hs⟩
    unfold Table.run
    rw [List.take_zero, e1]
    rfl
  | succ k ih =>
    intro hk
    obtain ⟨s, e1, e2, hf, x, hx, hs⟩ := ih (by omega)
    have hkl : k < W.length := by omega
    have hd := List.drop_eq_getElem_cons hkl
    have hck := hW W[k] (List.getElem_mem hkl)
    rw [hd] at hx
    obtain ⟨s', used, r, f1, f2, hf', hset, f3, hfirst⟩ := next_first h.sur h.chain.edges hT hck (hbytes (k + 1)) hf hx
    have hpos : (s.pos + 1) % 2 ^ 64 = k + 1 := by
      rw [e2, Nat.mod_eq_of_lt]
      unfold npos at hlen
      omega
    rw [hpos] at f2 f3
    have hdead := settled_dead h.chain.edges hset
    refine ⟨s', ?_, f2, hf', ?_⟩
    · unfold Table.run at e1 ⊢
      rw [Option.bind_eq_some_iff] at e1 ⊢
      obtain ⟨s0, g1, g2⟩ := e1
      refine ⟨s0, g1, ?_⟩
      rw [List.take_succ_eq_append_getElem hkl, List.foldlM_append, g2]
      show (t.next s W[k]).bind _ = _
      rw [f1]; rfl
    · rcases hs with ⟨hlt, rfl⟩ | ⟨hik, hs⟩
      · obtain ⟨y, hy, hs⟩ := wait (k + 1) hlt W[k] _ used r (by omega) (by omega) hdead f3
        exact ⟨y, hfirst y hy, hs⟩
      · rw [hd] at hs
        have hxL : x.num ≠ L := by
          rcases hs with ⟨h1, -⟩ | ⟨it, es', k', ns', hsh, ⟨d, h1, -⟩, -⟩
          · rw [h1]; exact h.chain.last_ne
          · intro hxL
            have h2 := (h1.1.2 258 L).1 (by rw [hxL]; exact h.sur.loop 258 (by omega))
            have := hsh.2.2 _ h2.1
            omega
        obtain ⟨y, hy, hs'⟩ := letter_pick h.chain hT hck (hbytes (k + 1)) hs hxL hdead f3
        exact ⟨y, hfirst y hy, .inr ⟨by omega, hs'⟩⟩

/-- What is reported. -/
theorem hunted (h : Hunt n J F E A G B L N ini es) (hT : TRepr t n J F) (hst : t.start = L) (hN : MatchedAt J F N) {W : List Nat} (hW : ∀ c ∈ W, c < 256) (hlen : W.length < npos) {i : Nat}
    (hil : i ≤ W.length) (hmin : ∀ k < i, ¬ Run E ini (W.drop k) N) {ns : List Nat} (hb : Best (itemsOf es) ns (W.drop i)) : ∃ s b y, t.run W = some s ∧
      t.getCapture s = some (b, some y) ∧ (y.beg ≠ npos → b = true) ∧ y.beg = begAt npos es ns i ∧ y.fin = finAt npos es ns i := by
  obtain ⟨s, e1, -, hf, y, hy, hs⟩ := track h hT hst hW hlen hil hmin hb W.length le_rfl
  rw [List.take_length] at e1
  rw [List.drop_length] at hy hs
  obtain ⟨b, e2, h2⟩ := capture_first h.sur hT hN hf hy
  have hyN : y.num = N := hy.mem.2
  refine ⟨s, b, y, e1, e2, h2, ?_⟩
  rcases hs with ⟨-, rfl⟩ | ⟨-, ⟨-, h3, h4⟩ | ⟨it, es', k', ns', hsh, ⟨d, h3, -⟩, -⟩⟩
  · exact absurd hyN.symm h.chain.last_ne
  · exact ⟨h3, h4⟩
  · exact absurd hyN (reads_ne h3 hsh.2.2 h.chain.beg)

end Capture
end Pire
