import Verif.Lemmas.Curvature
import Verif.Spec.Rows

/-!
# Lemmas about the Jacobian and transposed Jacobian products
-/

namespace Curvlinops

variable {α : Type _}

/-- Matrices (with their number of rows) stacked on top of each other. -/
def stackRows [Zero α] : List (Nat × Mat α) → Mat α
  | [] => fun _ _ => 0
  | (m, J) :: rest => fun r c => if r < m then J r c else stackRows rest (r - m) c

theorem getD_flatMap_range (g : Nat → List α) (n K : Nat) (z : α) (hg : ∀ r < n, (g r).length = K)
    (r k : Nat) (hr : r < n) (hk : k < K) :
    ((List.range n).flatMap g).length = n * K ∧
    ((List.range n).flatMap g).getD (r * K + k) z = (g r).getD k z := by
  have hlen : ∀ m ≤ n, ((List.range m).flatMap g).length = m * K := by
    intro m hm
    induction m with
    | zero => simp
    | succ m ih =>
      rw [List.range_succ, List.flatMap_append, List.length_append, ih (by omega)]
      simp only [List.flatMap_cons, List.flatMap_nil, List.append_nil]
      rw [hg m (by omega)]; ring
  refine ⟨hlen n le_rfl, ?_⟩
  have : ∀ m ≤ n, r < m → ((List.range m).flatMap g).getD (r * K + k) z = (g r).getD k z := by
    intro m hm hrm
    induction m with
    | zero => omega
    | succ m ih =>
      rw [List.range_succ, List.flatMap_append, getD_append_ite, hlen m (by omega)]
      by_cases h : r < m
      · rw [if_pos (flat_index_lt h hk), ih (by omega) h]
      · have hrm' : r = m := by omega
        subst hrm'
        rw [if_neg (by omega)]
        simp
  exact this n le_rfl hr

theorem stackLast_spec [Zero α] (S : List Nat) (K : Nat) (hK : 1 ≤ K) (f : Nat → Tensor α)
    (hf : ∀ n < K, (f n).shape = S) :
    ∃ t, stackLast ((List.range K).map f) = .ok t ∧ t.shape = S ++ [K] ∧ t.WF ∧
      ∀ r < S.prod, ∀ k < K, t.data.getD (r * K + k) 0 = (f k).data.getD r 0 := by
  obtain ⟨K', rfl⟩ : ∃ K', K = K' + 1 := ⟨K - 1, by omega⟩
  have hl : (List.range (K' + 1)).map f = f 0 :: (List.range K').map fun n => f (n + 1) := by
    rw [List.range_succ_eq_map, List.map_cons, List.map_map]; rfl
  have h0 : (f 0).shape = S := hf 0 (by omega)
  refine ⟨⟨S ++ [K' + 1], (List.range S.prod).flatMap fun r =>
    ((List.range (K' + 1)).map f).map fun d => d.data.getD r 0⟩, ?_, rfl, ?_, ?_⟩
  · rw [hl]
    unfold stackLast
    simp only
    rw [if_pos]
    · simp [h0]
    · rw [List.all_eq_true]
      intro d hd
      obtain ⟨n, hn, rfl⟩ := List.mem_map.mp hd
      have := List.mem_range.mp hn
      rw [hf (n + 1) (by omega), h0]; simp
  · simp only [Tensor.WF]
    rcases Nat.eq_zero_or_pos S.prod with h | h
    · simp [h]
    · rw [(getD_flatMap_range _ S.prod (K' + 1) (0 : α) (by simp) 0 0 h (by omega)).1]
      simp
  · intro r hr k hk
    rw [(getD_flatMap_range _ S.prod (K' + 1) (0 : α) (by simp) r k hr hk).2]
    simp [List.getD_eq_getElem?_getD, hk]

/-- `cat` of mini-batch results along the data dimension. -/
theorem cat0_spec (ts : List (Tensor α)) (ns : List Nat) (S : List Nat) (K : Nat) (hne : ns ≠ [])
    (h : HasShapes ts (ns.map (· :: S)) K) :
    Tensor.cat0 ts = .ok ⟨(ns.sum :: S) ++ [K], flatData ts⟩ := by
  have hs : ∀ t ∈ ts, ∃ n, t.shape = n :: (S ++ [K]) := by
    intro t ht
    have : t.shape ∈ ts.map (·.shape) := List.mem_map.mpr ⟨t, ht, rfl⟩
    rw [h.1] at this
    simp only [List.mem_map] at this
    obtain ⟨s, ⟨n, _, rfl⟩, h2⟩ := this
    exact ⟨n, h2.symm⟩
  have hsum : (ts.map fun u => u.shape.headD 0).sum = ns.sum := by
    have e : (ts.map (·.shape)).map (fun s => s.headD 0) = ns := by
      rw [h.1, List.map_map, List.map_map]
      conv_rhs => rw [← List.map_id ns]
      rfl
    rw [List.map_map] at e
    conv_rhs => rw [← e]
    rfl
  rcases ts with _ | ⟨t, ts⟩
  · have := h.length
    rw [List.length_map] at this
    exact absurd (List.length_eq_zero_iff.mp this.symm) hne
  obtain ⟨n, hn⟩ := hs t (by simp)
  unfold Tensor.cat0
  simp only [hn]
  rw [if_pos]
  · rw [hsum]; rfl
  · rw [List.all_eq_true]
    intro u hu
    obtain ⟨m, hm⟩ := hs u hu
    simp [hm]

/-- Rows of the concatenation. -/
theorem flat_stack [NonUnitalNonAssocSemiring α] (K N : Nat) (x : List α) :
    ∀ (bs : List (JacBatch α)) (ts : List (Tensor α)), HasShapes ts (bs.map (·.predShape)) K →
      (∀ i (hi : i < bs.length) (hi' : i < ts.length), ∀ r < (bs[i]).predShape.prod, ∀ k < K,
        (ts[i]).data.getD (r * K + k) 0 = ∑ c ∈ Finset.range N, (bs[i]).J r c * x.getD (c * K + k) 0) →
      ∀ r < total (bs.map (·.predShape)), ∀ k < K, (flatData ts).getD (r * K + k) 0 =
        ∑ c ∈ Finset.range N, stackRows (bs.map fun b => (b.predShape.prod, b.J)) r c *
          x.getD (c * K + k) 0
  | [], _, _, _, r, hr, _, _ => by simp at hr
  | b :: bs, ts, hts, hent, r, hr, k, hk => by
    rcases ts with _ | ⟨t, ts⟩
    · have := hts.length; simp at this
    rw [List.map_cons] at hts
    rw [flat_entry_cons hts hk]
    simp only [List.map_cons, stackRows]
    by_cases h : r < b.predShape.prod
    · rw [if_pos h]
      simp only [if_pos h]
      exact hent 0 (by simp) (by simp) r h k hk
    · rw [if_neg h]
      simp only [if_neg h]
      rw [List.map_cons, total_cons] at hr
      refine flat_stack K N x bs ts (hasShapes_cons.mp hts).2 ?_ (r - b.predShape.prod) (by omega) k hk
      intro i hi hi'
      exact hent (i + 1) (by simpa using hi) (by simpa using hi')

theorem pyMapM_exists {β γ : Type _} (f : β → Py γ) (P : β → γ → Prop) :
    ∀ (l : List β), (∀ a ∈ l, ∃ c, f a = .ok c ∧ P a c) →
      ∃ cs, pyMapM f l = .ok cs ∧ cs.length = l.length ∧
        ∀ i (hi : i < l.length) (hi' : i < cs.length), P l[i] cs[i]
  | [], _ => ⟨[], rfl, rfl, by simp⟩
  | a :: as, h => by
    obtain ⟨c, h1, h2⟩ := h a (by simp)
    obtain ⟨cs, g1, g2, g3⟩ := pyMapM_exists f P as (fun b hb => h b (by simp [hb]))
    refine ⟨c :: cs, by rw [pyMapM, h1]; simp only [g1], by simp [g2], ?_⟩
    intro i hi hi'
    rcases i with _ | i
    · exact h2
    · exact g3 i (by simpa using hi) (by simpa using hi')

theorem total_pred (bs : List (JacBatch α)) (S : List Nat) (h : ∀ b ∈ bs, ∃ n, b.predShape = n :: S) :
    total (bs.map (·.predShape)) = (bs.map fun b => b.predShape.headD 0).sum * S.prod := by
  induction bs with
  | nil => simp
  | cons b bs ih =>
    obtain ⟨n, hn⟩ := h b (by simp)
    rw [List.map_cons, total_cons, ih (fun b' hb' => h b' (by simp [hb'])), List.map_cons, List.sum_cons,
      hn]
    simp only [List.prod_cons, List.headD_cons]
    ring

theorem jacobianOp_representsAt [NonUnitalNonAssocSemiring α] (shapes : List (List Nat))
    (hshapes : shapes ≠ []) (S : List Nat) (b : JacBatch α) (bs : List (JacBatch α))
    (hS : ∀ b' ∈ b :: bs, ∃ n, b'.predShape = n :: S) (K : Nat) (hK : 1 ≤ K) :
    RepresentsAt (jacobianOp shapes ((b :: bs).map fun b' => b'.predShape.headD 0).sum b bs)
      (stackRows ((b :: bs).map fun b' => (b'.predShape.prod, b'.J))) K := by
  intro M hM
  have hM' : HasShapes M shapes K := hM
  have hcols := fun n (hn : n < K) => cols_spec hM' hn
  obtain ⟨JM, h1, h2, h3⟩ := pyMapM_exists
    (fun b : JacBatch α => stackLast ((List.range K).map fun n =>
        jvp b.J b.predShape (prefs 0 shapes) (M.map (Tensor.col n))))
    (fun b t => t.shape = b.predShape ++ [K] ∧ t.WF ∧
      ∀ r < b.predShape.prod, ∀ k < K, t.data.getD (r * K + k) 0 =
        ∑ c ∈ Finset.range (total shapes), b.J r c * (flatData M).getD (c * K + k) 0) (b :: bs) (by
      intro b' _
      obtain ⟨t, t1, t2, t3, t4⟩ := stackLast_spec b'.predShape K hK
        (fun n => jvp b'.J b'.predShape (prefs 0 shapes) (M.map (Tensor.col n)))
        (fun n hn => rfl)
      refine ⟨t, t1, t2, t3, ?_⟩
      intro r hr k hk
      rw [t4 r hr k hk, (jvp_spec b'.J b'.predShape shapes _ (hcols k hk).1).2.2 r hr]
      exact Finset.sum_congr rfl fun c hc => by rw [(hcols k hk).2 c (Finset.mem_range.mp hc)])
  have hJM : HasShapes JM ((b :: bs).map (·.predShape)) K := by
    constructor
    · apply List.ext_getElem
      · simp [h2]
      · intro i hi hi'
        simp only [List.length_map] at hi hi'
        simp only [List.getElem_map]
        exact (h3 i (by simpa using hi') hi).1
    · intro t ht
      obtain ⟨i, hi, rfl⟩ := List.mem_iff_getElem.mp ht
      exact (h3 i (by omega) hi).2.1
  have hns : (b :: bs).map (·.predShape) = ((b :: bs).map fun b' => b'.predShape.headD 0).map (· :: S) := by
    rw [List.map_map]
    refine List.map_congr_left fun b' hb' => ?_
    obtain ⟨n, hn⟩ := hS b' hb'
    simp [hn]
  have hcat := cat0_spec JM ((b :: bs).map fun b' => b'.predShape.headD 0) S K (by simp) (hns ▸ hJM)
  obtain ⟨n0, hn0⟩ := hS b (by simp)
  have hlen := hJM.flatData_length
  have htot := total_pred (b :: bs) S hS
  rw [total] at htot
  rw [htot] at hlen
  refine ⟨[⟨(((b :: bs).map fun b' => b'.predShape.headD 0).sum :: S) ++ [K], flatData JM⟩], ?_, ?_, ?_⟩
  · change (jacobianMatmat shapes (b :: bs) M) = _
    unfold jacobianMatmat
    simp only [numVecs_ok hM' hshapes, h1, hcat]
  · change HasShapes _ [_ :: b.predShape.tail] K
    rw [hasShapes_cons]
    refine ⟨⟨by simp [hn0], ?_⟩, hasShapes_nil⟩
    simp only [Tensor.WF]
    rw [hlen]
    simp [mul_assoc]
  · change IsProduct _ ([_ :: b.predShape.tail].map List.prod).sum (total shapes) K _ _
    have hrows : ([((b :: bs).map fun b' => b'.predShape.headD 0).sum :: b.predShape.tail].map
        List.prod).sum = ((b :: bs).map fun b' => b'.predShape.headD 0).sum * S.prod := by
      simp [hn0]
    rw [hrows, flatData_cons]
    have : flatData ([] : List (Tensor α)) = [] := rfl
    rw [this, List.append_nil]
    refine ⟨hlen, fun r hr k hk => ?_⟩
    refine flat_stack K (total shapes) (flatData M) (b :: bs) JM hJM ?_ r ?_ k hk
    · intro i hi hi'
      exact (h3 i hi hi').2.2
    · rw [total, htot]; exact hr

/-! ## Transposed Jacobian -/

theorem sliceCol_spec [Zero α] {m : Tensor α} {N K : Nat} {S : List Nat}
    (hm : m.shape = (N :: S) ++ [K]) (start n k : Nat) (hle : start + n ≤ N) (_hk : k < K) :
    (sliceCol start (start + n) k m).shape = n :: S ∧
      ∀ s < n * S.prod, (sliceCol start (start + n) k m).data.getD s 0 =
        m.data.getD ((start * S.prod + s) * K + k) 0 := by
  have e1 : m.shape.getLastD 0 = K := by rw [hm, List.getLastD_concat]
  have e2 : m.shape.dropLast.tail = S := by rw [hm, List.dropLast_concat]; rfl
  have e3 : m.shape.headD 0 = N := by rw [hm]; simp
  have e4 : min start N = start := by omega
  have e5 : min (start + n) N = start + n := by omega
  have e6 : start + n - start = n := by omega
  unfold sliceCol
  simp only [e1, e2, e3, e4, e5, e6]
  refine ⟨trivial, fun s hs => ?_⟩
  rw [getD_range_map _ _ _ _ hs]

theorem vjpLoop_spec [NonUnitalNonAssocSemiring α] {shapes : List (List Nat)} {m : Tensor α}
    {N K : Nat} {S : List Nat} (hm : m.shape = (N :: S) ++ [K]) (b : JacBatch α) (start n : Nat)
    (hb : b.predShape = n :: S) (hle : start + n ≤ N) :
    ∀ (ns : List Nat) (T : List (Tensor α)), ns.Nodup → (∀ k ∈ ns, k < K) → HasShapes T shapes K →
      ∃ T', vjpLoop (prefs 0 shapes) b start [m] ns T = .ok T' ∧ HasShapes T' shapes K ∧
        ∀ r < total shapes, ∀ k < K, (flatData T').getD (r * K + k) 0 =
          (flatData T).getD (r * K + k) 0 + if k ∈ ns then
            ∑ s ∈ Finset.range (n * S.prod), b.J s r * m.data.getD ((start * S.prod + s) * K + k) 0
            else 0
  | [], T, _, _, hT => ⟨T, rfl, hT, by simp⟩
  | k0 :: ns, T, hnd, hlt, hT => by
    rw [List.nodup_cons] at hnd
    have hk0 := hlt k0 (by simp)
    obtain ⟨s1, s2⟩ := sliceCol_spec hm start n k0 hle hk0
    obtain ⟨v1, v2⟩ := vjp_spec b.J shapes (sliceCol start (start + n) k0 m)
    obtain ⟨T1, t1, t2, t3⟩ := addCols_spec hT v1 hk0
    obtain ⟨T', g1, g2, g3⟩ := vjpLoop_spec hm b start n hb hle ns T1 hnd.2
      (fun k hk => hlt k (by simp [hk])) t2
    have hh : b.predShape.headD 0 = n := by simp [hb]
    refine ⟨T', ?_, g2, ?_⟩
    · rw [vjpLoop]
      simp only [List.map_cons, List.map_nil, hh]
      rw [if_pos (by rw [s1, hb])]
      simp only [t1, g1]
    · intro r hr k hk
      rw [g3 r hr k hk, t3 r hr k hk]
      by_cases h : k = k0
      · subst h
        rw [if_pos rfl, if_neg hnd.1, if_pos (by simp), add_zero, v2 r hr, s1]
        congr 1
        rw [List.prod_cons]
        exact Finset.sum_congr rfl fun s hs => by rw [s2 s (Finset.mem_range.mp hs)]
      · rw [if_neg h, add_zero]
        simp [h]

theorem transposedLoop_spec [NonUnitalNonAssocSemiring α] {shapes : List (List Nat)} {m : Tensor α}
    {N K : Nat} {S : List Nat} (hm : m.shape = (N :: S) ++ [K]) :
    ∀ (bs : List (JacBatch α)) (processed : Nat) (T : List (Tensor α)),
      (∀ b ∈ bs, ∃ n, b.predShape = n :: S) →
      processed + (bs.map fun b => b.predShape.headD 0).sum ≤ N → HasShapes T shapes K →
      ∃ T', transposedLoop (prefs 0 shapes) K [m] bs processed T = .ok T' ∧ HasShapes T' shapes K ∧
        ∀ r < total shapes, ∀ k < K, (flatData T').getD (r * K + k) 0 =
          (flatData T).getD (r * K + k) 0 +
            ∑ s ∈ Finset.range ((bs.map fun b => b.predShape.headD 0).sum * S.prod),
              stackRows (bs.map fun b => (b.predShape.prod, b.J)) s r *
                m.data.getD ((processed * S.prod + s) * K + k) 0
  | [], _, T, _, _, hT => ⟨T, rfl, hT, by simp⟩
  | b :: bs, processed, T, hS, hsum, hT => by
    obtain ⟨n, hn⟩ := hS b (by simp)
    have hh : b.predShape.headD 0 = n := by simp [hn]
    rw [List.map_cons, List.sum_cons, hh] at hsum
    obtain ⟨T1, t1, t2, t3⟩ := vjpLoop_spec hm b processed n hn (by omega) (List.range K) T
      List.nodup_range (fun k hk => List.mem_range.mp hk) hT
    obtain ⟨T', g1, g2, g3⟩ := transposedLoop_spec hm bs (processed + n) T1
      (fun b' hb' => hS b' (by simp [hb'])) (by omega) t2
    refine ⟨T', ?_, g2, ?_⟩
    · rw [transposedLoop]
      simp only [t1, hh, g1]
    · intro r hr k hk
      rw [g3 r hr k hk, t3 r hr k hk, if_pos (List.mem_range.mpr hk), add_assoc]
      congr 1
      rw [List.map_cons, List.sum_cons, hh, add_mul n, Finset.sum_range_add]
      have hp : b.predShape.prod = n * S.prod := by rw [hn, List.prod_cons]
      congr 1
      · refine Finset.sum_congr rfl fun s hs => ?_
        have hs := Finset.mem_range.mp hs
        simp only [List.map_cons, stackRows, hp, if_pos hs]
      · refine Finset.sum_congr rfl fun s _ => ?_
        simp only [List.map_cons, stackRows, hp]
        rw [if_neg (by omega)]
        have e1 : n * S.prod + s - n * S.prod = s := by omega
        have e2 : (processed + n) * S.prod + s = processed * S.prod + (n * S.prod + s) := by ring
        rw [e1, e2]

theorem transposedJacobianOp_represents [NonUnitalNonAssocSemiring α] (shapes : List (List Nat))
    (S : List Nat) (b : JacBatch α) (bs : List (JacBatch α))
    (hS : ∀ b' ∈ b :: bs, ∃ n, b'.predShape = n :: S) :
    Represents (transposedJacobianOp shapes ((b :: bs).map fun b' => b'.predShape.headD 0).sum b bs)
      (fun r c => stackRows ((b :: bs).map fun b' => (b'.predShape.prod, b'.J)) c r) := by
  intro K M hM
  obtain ⟨n0, hn0⟩ := hS b (by simp)
  have hM' : HasShapes M [((b :: bs).map fun b' => b'.predShape.headD 0).sum :: S] K := by
    have := hM
    simp only [transposedJacobianOp, hn0, List.tail_cons] at this
    simpa [hn0] using this
  rcases M with _ | ⟨m, _ | ⟨m', M⟩⟩
  · have := hM'.length; simp at this
  swap
  · have := hM'.length; simp at this
  have hm := (hasShapes_cons.mp hM').1
  have hzero : HasShapes (shapes.map fun s => (⟨s ++ [K], List.replicate (s.prod * K) 0⟩ : Tensor α))
      shapes K := by
    constructor
    · rw [List.map_map]; rfl
    · intro t ht
      obtain ⟨s, _, rfl⟩ := List.mem_map.mp ht
      simp [Tensor.WF]
  have hz : ∀ i, (flatData (shapes.map fun s =>
      (⟨s ++ [K], List.replicate (s.prod * K) 0⟩ : Tensor α))).getD i 0 = 0 := by
    intro i
    have : ∀ x ∈ flatData (shapes.map fun s =>
      (⟨s ++ [K], List.replicate (s.prod * K) 0⟩ : Tensor α)), x = 0 := by
      intro x hx
      simp only [flatData, List.mem_flatten, List.mem_map] at hx
      obtain ⟨l, ⟨t, ⟨s, _, rfl⟩, rfl⟩, hx⟩ := hx
      exact (List.mem_replicate.mp hx).2
    rw [List.getD_eq_getElem?_getD]
    rcases h : (flatData (shapes.map fun s =>
      (⟨s ++ [K], List.replicate (s.prod * K) 0⟩ : Tensor α)))[i]? with _ | x
    · rfl
    · exact this x (List.mem_of_getElem? h)
  obtain ⟨T', g1, g2, g3⟩ := transposedLoop_spec (shapes := shapes) hm.1 (b :: bs) 0 _ hS
    (by simp) hzero
  refine ⟨T', ?_, g2, ?_⟩
  · change transposedJacobianMatmat shapes (b :: bs) [m] = _
    unfold transposedJacobianMatmat
    simp only [numVecs_ok hM' (by simp), g1]
  · change IsProduct _ (total shapes) ([_ :: b.predShape.tail].map List.prod).sum K _ _
    have hrows : ([((b :: bs).map fun b' => b'.predShape.headD 0).sum :: b.predShape.tail].map
        List.prod).sum = ((b :: bs).map fun b' => b'.predShape.headD 0).sum * S.prod := by
      simp [hn0]
    rw [hrows]
    refine ⟨g2.flatData_length, fun r hr k hk => ?_⟩
    rw [g3 r hr k hk, hz, zero_add]
    refine Finset.sum_congr rfl fun s _ => ?_
    rw [flatData_cons]
    have : flatData ([] : List (Tensor α)) = [] := rfl
    rw [this, List.append_nil, Nat.zero_mul, Nat.zero_add]

end Curvlinops
