import Verif.Props.SeqNet
import Verif.Props.Reparam
import Verif.Props.KfacInverseFresh
import Verif.Props.NaturalGradient
import Verif.Props.SeqNetMC

/-!
# C112: KFAC under linear changes of layer inputs and outputs
-/

namespace Curvlinops

/-! ## Specification -/

/-- Specification: `d'` is what the hooks see of a datum if the inputs of layer `l` are multiplied with `Ω` (plus a shift, the last column
of `Ω`, if weight and bias are treated jointly), and its outputs `z'` enter the rest of the network as `Φ z'`. -/
structure HookMapped (cfg : KfacCfg) (l : KLayer) (Ω Φ : Mat ℝ) (d d' : KDatum) : Prop where
  x : ∀ s < l.S, ∀ i < l.din, d'.x l.name s i = ∑ j ∈ Finset.range l.din, Ω i j * d.x l.name s j + if l.joint cfg then Ω i l.din else 0
  jac : ∀ s < l.S, ∀ o < l.dout, ∀ t < cfg.T, ∀ c < cfg.C,
    d'.jac l.name s o t c = ∑ p ∈ Finset.range l.dout, Φ p o * d.jac l.name s p t c
  sqrt : d'.sqrt = d.sqrt
  lossGrad : d'.lossGrad = d.lossGrad

/-- Specification: the last row of `Ω` keeps the one that is appended to the inputs for the bias. -/
def KeepsOne (cfg : KfacCfg) (l : KLayer) (Ω : Mat ℝ) : Prop :=
  l.joint cfg = true → ∀ j ≤ l.din, Ω l.din j = if j = l.din then 1 else 0

/-- Specification: without backward passes (`FORWARD_ONLY`), `Φ` has to be orthogonal. -/
def FwdOk (cfg : KfacCfg) (l : KLayer) (Φ : Mat ℝ) : Prop :=
  cfg.fisher = .forwardOnly → ∀ i < l.dout, ∀ j < l.dout, ∑ p ∈ Finset.range l.dout, Φ p i * Φ p j = if i = j then 1 else 0

/-- `Ω A Ωᵀ`. -/
def congMat (n : Nat) (Ω A : Mat ℝ) : Mat ℝ := pullMat n (fun i j => Ω j i) A

/-! ## Factors -/

theorem gram_mapped {α : Type _} (L : List α) (n : Nat) (u u' : α → Nat → ℝ) (D : Mat ℝ) {i j : Nat}
    (hi : ∀ a ∈ L, u' a i = ∑ p ∈ Finset.range n, D p i * u a p) (hj : ∀ a ∈ L, u' a j = ∑ p ∈ Finset.range n, D p j * u a p) :
    (L.map fun a => u' a i * u' a j).sum = pullMat n D (fun p q => (L.map fun a => u a p * u a q).sum) i j := by
  rw [← pullMat_sum]
  refine congrArg List.sum (List.map_congr_left fun a ha => ?_)
  rw [hi a ha, hj a ha, Finset.sum_mul_sum]
  exact Finset.sum_congr rfl fun p _ => Finset.sum_congr rfl fun q _ => by ring

theorem pullMat_finset {ι : Type _} (s : Finset ι) (n : Nat) (D : Mat ℝ) (a : ι → Mat ℝ) (r c : Nat) :
    ∑ b ∈ s, pullMat n D (a b) r c = pullMat n D (fun i j => ∑ b ∈ s, a b i j) r c := by
  have := pullMat_sum n D a s.toList r c
  simpa only [Finset.sum_map_toList] using this

variable {cfg : KfacCfg} {l : KLayer} {Ω Φ : Mat ℝ} {d d' : KDatum}

theorem HookMapped.inputVec (h : HookMapped cfg l Ω Φ d d') (hone : KeepsOne cfg l Ω) {s i : Nat} (hs : s < l.S)
    (hi : i < l.din + if l.joint cfg then 1 else 0) :
    specInputVec cfg l d' s i = ∑ j ∈ Finset.range (l.din + if l.joint cfg then 1 else 0), Ω i j * specInputVec cfg l d s j := by
  unfold specInputVec
  by_cases hj : l.joint cfg = true
  · simp only [hj, if_true, true_and] at hi ⊢
    rw [Finset.sum_range_succ, if_pos rfl]
    have e : ∀ j ∈ Finset.range l.din, Ω i j * (if j = l.din then 1 else d.x l.name s j) = Ω i j * d.x l.name s j := fun j hj => by
      rw [if_neg (Finset.mem_range.mp hj).ne]
    rw [Finset.sum_congr rfl e]
    by_cases h1 : i = l.din
    · subst h1
      rw [if_pos rfl, hone hj _ le_rfl, if_pos rfl, Finset.sum_eq_zero fun j hj' => ?_]
      · norm_num
      · rw [hone hj j (Finset.mem_range.mp hj').le, if_neg (Finset.mem_range.mp hj').ne, zero_mul]
    · rw [if_neg h1, h.x s hs i (by omega), if_pos hj, mul_one]
  · simp only [Bool.not_eq_true] at hj
    simp only [hj, Bool.false_eq_true, if_false, false_and, Nat.add_zero] at hi ⊢
    rw [h.x s hs i hi, hj]
    simp

theorem HookMapped.meanInput (h : HookMapped cfg l Ω Φ d d') (hone : KeepsOne cfg l Ω) (hS : l.S ≠ 0) {i : Nat}
    (hi : i < l.din + if l.joint cfg then 1 else 0) :
    specMeanInput cfg l d' i = ∑ j ∈ Finset.range (l.din + if l.joint cfg then 1 else 0), Ω i j * specMeanInput cfg l d j := by
  have hS' : (l.S : ℝ) ≠ 0 := Nat.cast_ne_zero.mpr hS
  have key : ∀ (e : KDatum) (i : Nat), specMeanInput cfg l e i = (∑ s ∈ Finset.range l.S, specInputVec cfg l e s i) / l.S := fun e i => by
    unfold specMeanInput specInputVec
    split
    · simp [hS']
    · rfl
  simp only [key]
  rw [Finset.sum_congr rfl fun s hs => h.inputVec hone (Finset.mem_range.mp hs) hi, Finset.sum_comm, Finset.sum_div]
  exact Finset.sum_congr rfl fun j _ => by rw [← Finset.mul_sum, mul_div_assoc]

theorem HookMapped.gradVec (h : HookMapped cfg l Ω Φ d d') (v : Nat → Nat → ℝ) {s o : Nat} (hs : s < l.S) (ho : o < l.dout) :
    specGradVec cfg l d' v s o = ∑ p ∈ Finset.range l.dout, Φ p o * specGradVec cfg l d v s p := by
  unfold specGradVec
  simp only [Finset.mul_sum]
  symm
  rw [Finset.sum_comm]
  refine Finset.sum_congr rfl fun t ht => ?_
  rw [Finset.sum_comm]
  refine Finset.sum_congr rfl fun c hc => ?_
  rw [h.jac s hs o ho t (Finset.mem_range.mp ht) c (Finset.mem_range.mp hc), Finset.sum_mul]
  exact Finset.sum_congr rfl fun p _ => by ring

theorem pull_sums {α β : Type _} (ps : List α) (cot : α → List β) (n : Nat) (D : Mat ℝ) (F : α → β → Mat ℝ) (F' : α → β → ℝ) {i j : Nat}
    (h : ∀ p ∈ ps, ∀ v, F' p v = pullMat n D (F p v) i j) :
    (ps.map fun p => ((cot p).map fun v => F' p v).sum).sum =
      pullMat n D (fun i j => (ps.map fun p => ((cot p).map fun v => F p v i j).sum).sum) i j := by
  rw [← pullMat_sum]
  refine congrArg List.sum (List.map_congr_left fun p hp => ?_)
  rw [← pullMat_sum]
  exact congrArg List.sum (List.map_congr_left fun v _ => h p hp v)

theorem HookMapped.cotangents (h : HookMapped cfg l Ω Φ d d') : specCotangents cfg d' = specCotangents cfg d := by
  unfold specCotangents
  rw [h.sqrt, h.lossGrad]

variable {ps : List (KDatum × KDatum)}

theorem specInputFactor_mapped (h : ∀ p ∈ ps, HookMapped cfg l Ω Φ p.1 p.2) (hone : KeepsOne cfg l Ω) (hS : l.S ≠ 0) {i j : Nat}
    (hi : i < l.din + if l.joint cfg then 1 else 0) (hj : j < l.din + if l.joint cfg then 1 else 0) :
    specInputFactor cfg l (ps.map Prod.snd) i j =
      congMat (l.din + if l.joint cfg then 1 else 0) Ω (specInputFactor cfg l (ps.map Prod.fst)) i j := by
  unfold specInputFactor congMat
  cases cfg.approx with
  | expand =>
    simp only [List.map_map, Function.comp_def]
    rw [← pullMat_mul, list_sum_finset_comm]
    congr 1
    simp only [list_sum_finset_comm]
    rw [← pullMat_finset]
    refine Finset.sum_congr rfl fun s hs => ?_
    exact gram_mapped ps _ (fun p => specInputVec cfg l p.1 s) (fun p => specInputVec cfg l p.2 s) (fun i j => Ω j i)
      (fun p hp => (h p hp).inputVec hone (Finset.mem_range.mp hs) hi) fun p hp => (h p hp).inputVec hone (Finset.mem_range.mp hs) hj
  | reduce =>
    simp only [List.map_map, Function.comp_def]
    rw [← pullMat_mul]
    congr 1
    exact gram_mapped ps _ (fun p => specMeanInput cfg l p.1) (fun p => specMeanInput cfg l p.2) (fun i j => Ω j i)
      (fun p hp => (h p hp).meanInput hone hS hi) fun p hp => (h p hp).meanInput hone hS hj

theorem specGradFactor_mapped (hf : FwdOk cfg l Φ) (h : ∀ p ∈ ps, HookMapped cfg l Ω Φ p.1 p.2) {i j : Nat}
    (hi : i < l.dout) (hj : j < l.dout) :
    specGradFactor cfg l (ps.map Prod.snd) i j = pullMat l.dout Φ (specGradFactor cfg l (ps.map Prod.fst)) i j := by
  have hcot : ∀ (F : KDatum → (Nat → Nat → ℝ) → ℝ), (ps.map fun p => ((specCotangents cfg p.2).map (F p.2)).sum).sum =
      (ps.map fun p => ((specCotangents cfg p.1).map (F p.2)).sum).sum := fun F =>
    congrArg List.sum (List.map_congr_left fun p hp => by rw [(h p hp).cotangents])
  have expand : specGradScale cfg * ((ps.map Prod.snd).map fun d => ((specCotangents cfg d).map fun v =>
      ∑ s ∈ Finset.range l.S, specGradVec cfg l d v s i * specGradVec cfg l d v s j).sum).sum =
      pullMat l.dout Φ (fun i j => specGradScale cfg * ((ps.map Prod.fst).map fun d => ((specCotangents cfg d).map fun v =>
      ∑ s ∈ Finset.range l.S, specGradVec cfg l d v s i * specGradVec cfg l d v s j).sum).sum) i j := by
    simp only [List.map_map, Function.comp_def]
    rw [← pullMat_mul, hcot fun d v => ∑ s ∈ Finset.range l.S, specGradVec cfg l d v s i * specGradVec cfg l d v s j]
    congr 1
    refine pull_sums ps _ _ _ (fun p v i j => ∑ s ∈ Finset.range l.S, specGradVec cfg l p.1 v s i * specGradVec cfg l p.1 v s j) _
      fun p hp v => ?_
    rw [← pullMat_finset]
    refine Finset.sum_congr rfl fun s hs => ?_
    rw [(h p hp).gradVec v (Finset.mem_range.mp hs) hi, (h p hp).gradVec v (Finset.mem_range.mp hs) hj, Finset.sum_mul_sum]
    exact Finset.sum_congr rfl fun p _ => Finset.sum_congr rfl fun q _ => by ring
  have reduce : specGradScale cfg * ((ps.map Prod.snd).map fun d => ((specCotangents cfg d).map fun v =>
      (∑ s ∈ Finset.range l.S, specGradVec cfg l d v s i) * ∑ s ∈ Finset.range l.S, specGradVec cfg l d v s j).sum).sum =
      pullMat l.dout Φ (fun i j => specGradScale cfg * ((ps.map Prod.fst).map fun d => ((specCotangents cfg d).map fun v =>
      (∑ s ∈ Finset.range l.S, specGradVec cfg l d v s i) * ∑ s ∈ Finset.range l.S, specGradVec cfg l d v s j).sum).sum) i j := by
    simp only [List.map_map, Function.comp_def]
    rw [← pullMat_mul,
      hcot fun d v => (∑ s ∈ Finset.range l.S, specGradVec cfg l d v s i) * ∑ s ∈ Finset.range l.S, specGradVec cfg l d v s j]
    congr 1
    refine pull_sums ps _ _ _ (fun p v i j => (∑ s ∈ Finset.range l.S, specGradVec cfg l p.1 v s i) *
      ∑ s ∈ Finset.range l.S, specGradVec cfg l p.1 v s j) _ fun p hp v => ?_
    have hsum : ∀ o < l.dout, ∑ s ∈ Finset.range l.S, specGradVec cfg l p.2 v s o =
          ∑ q ∈ Finset.range l.dout, Φ q o * ∑ s ∈ Finset.range l.S, specGradVec cfg l p.1 v s q := by
      intro o ho
      rw [Finset.sum_congr rfl fun s hs => (h p hp).gradVec v (Finset.mem_range.mp hs) ho, Finset.sum_comm]
      exact Finset.sum_congr rfl fun p _ => (Finset.mul_sum _ _ _).symm
    rw [hsum i hi, hsum j hj, Finset.sum_mul_sum]
    exact Finset.sum_congr rfl fun p _ => Finset.sum_congr rfl fun q _ => by ring
  have fwd : cfg.fisher = .forwardOnly → (if i = j then (1 : ℝ) else 0) = pullMat l.dout Φ (fun i j => if i = j then 1 else 0) i j := by
    intro hff
    rw [← hf hff i hi j hj]
    unfold pullMat
    refine Finset.sum_congr rfl fun p hp => ?_
    simp [Finset.mem_range.mp hp]
  unfold specGradFactor
  cases hff : cfg.fisher <;> cases cfg.approx <;> first | exact fwd hff | exact expand | exact reduce

/-! ## Block-diagonal matrices -/

/-- Kronecker-structured blocks with transformed factors. -/
theorem kron_pull {bs : List (KBlock ℝ × KBlock ℝ × KBlock ℝ)} {N : Nat} (ht : GTiles (fun b => b.2.1) bs N)
    (hg : ∀ b ∈ bs, b.1.rows = b.2.1.rows ∧ b.1.cols = b.2.1.cols ∧ b.1.idx = b.2.1.idx ∧
      b.2.2.rows = b.2.1.rows ∧ b.2.2.cols = b.2.1.cols ∧ b.2.2.idx = b.2.1.idx)
    (hA : ∀ b ∈ bs, ∀ i < b.2.1.cols, ∀ j < b.2.1.cols, b.2.2.A i j = congMat b.2.1.cols b.1.A b.2.1.A i j)
    (hB : ∀ b ∈ bs, ∀ i < b.2.1.rows, ∀ j < b.2.1.rows, b.2.2.B i j = pullMat b.2.1.rows b.1.B b.2.1.B i j)
    {T M M' : Mat ℝ} (hT : IsKron (bs.map fun b => b.1) T) (hM : IsKron (bs.map fun b => b.2.1) M)
    (hM' : IsKron (bs.map fun b => b.2.2) M') (r c : Nat) (hr : r < N) (hc : c < N) : M' r c = pullMat N T M r c := by
  rw [isKron_iff, blockDiag_map] at hT hM hM'
  have hT1 : BlockDiag (fun b : KBlock ℝ × KBlock ℝ × KBlock ℝ => b.2.1) (fun b => kronEnt b.1) bs T :=
    hT.congr (fun b hb => ⟨(hg b hb).1.symm, (hg b hb).2.1.symm, fun i _ j _ => congrFun (congrFun (hg b hb).2.2.1.symm i) j⟩)
      fun _ _ _ _ _ _ _ _ _ _ => rfl
  have hT2 : BlockDiag (fun b : KBlock ℝ × KBlock ℝ × KBlock ℝ => b.2.1) (fun b i j i' j' => kronEnt b.1 i' j' i j) bs (fun r c => T c r) := by
    intro l hl l' hl' i hi j hj i' hi' j' hj'
    refine (hT1 l' hl' l hl i' hi' j' hj' i hi j hj).trans ?_
    by_cases hll : l = l'
    · subst hll
      simp only [if_true]
    · rw [if_neg hll, if_neg (Ne.symm hll)]
  have hp := hT2.mul (hM.mul hT1 ht) ht
  have hq : BlockDiag (fun b : KBlock ℝ × KBlock ℝ × KBlock ℝ => b.2.1) (fun b => kronEnt b.2.2) bs M' :=
    hM'.congr (fun b hb => ⟨(hg b hb).2.2.2.1.symm, (hg b hb).2.2.2.2.1.symm,
      fun i _ j _ => congrFun (congrFun (hg b hb).2.2.2.2.2.symm i) j⟩) fun _ _ _ _ _ _ _ _ _ _ => rfl
  have e := BlockDiag.unique (hp.congr (ent' := fun b => kronEnt b.2.2) (fun _ _ => ⟨rfl, rfl, fun _ _ _ _ => rfl⟩) ?_) hq ht r c hr hc
  · rw [← e]
    unfold pullMat
    refine Finset.sum_congr rfl fun i _ => ?_
    rw [Finset.mul_sum]
    exact Finset.sum_congr rfl fun j _ => by ring
  · intro b hb i hi j hj k hk m hm
    dsimp only [id] at hi hj hk hm ⊢
    unfold kronEnt
    rw [hB b hb i hi k hk, hA b hb m hm j hj]
    have key : ∀ (R C : Nat) (Φ B Ω A : Mat ℝ), ∑ i' ∈ Finset.range R, ∑ j' ∈ Finset.range C, Φ i' i * Ω j j' *
        ∑ i'' ∈ Finset.range R, ∑ j'' ∈ Finset.range C, B i' i'' * A j'' j' * (Φ i'' k * Ω m j'') =
        pullMat R Φ B i k * congMat C Ω A m j := by
      intro R C Φ B Ω A
      have e1 : ∀ i' j', ∑ i'' ∈ Finset.range R, ∑ j'' ∈ Finset.range C, B i' i'' * A j'' j' * (Φ i'' k * Ω m j'') =
          (∑ i'' ∈ Finset.range R, B i' i'' * Φ i'' k) * ∑ j'' ∈ Finset.range C, A j'' j' * Ω m j'' := fun i' j' => by
        rw [Finset.sum_mul_sum]
        exact Finset.sum_congr rfl fun _ _ => Finset.sum_congr rfl fun _ _ => by ring
      have e2 : pullMat R Φ B i k = ∑ i' ∈ Finset.range R, Φ i' i * ∑ i'' ∈ Finset.range R, B i' i'' * Φ i'' k := by
        unfold pullMat
        refine Finset.sum_congr rfl fun i' _ => ?_
        rw [Finset.mul_sum]
        exact Finset.sum_congr rfl fun _ _ => by ring
      have e3 : congMat C Ω A m j = ∑ j' ∈ Finset.range C, Ω j j' * ∑ j'' ∈ Finset.range C, A j'' j' * Ω m j'' := by
        unfold congMat pullMat
        rw [Finset.sum_comm]
        refine Finset.sum_congr rfl fun j' _ => ?_
        rw [Finset.mul_sum]
        exact Finset.sum_congr rfl fun _ _ => by ring
      rw [e2, e3, Finset.sum_mul_sum]
      refine Finset.sum_congr rfl fun i' _ => Finset.sum_congr rfl fun j' _ => ?_
      rw [e1]
      ring
    exact (key _ _ _ _ _ _).symm

/-- The blocks of three layers with the same parameters. -/
def Layer.triples (sep : Bool) (shapes : List (List Nat)) (l t l' : Layer ℝ) : List (KBlock ℝ × KBlock ℝ × KBlock ℝ) :=
  match l.pos with
  | .both w b => if sep then [(t.wBlock shapes w, l.wBlock shapes w, l'.wBlock shapes w), (t.bBlock shapes b, l.bBlock shapes b, l'.bBlock shapes b)]
      else [(t.jBlock shapes w b, l.jBlock shapes w b, l'.jBlock shapes w b)]
  | .weight w => [(t.wBlock shapes w, l.wBlock shapes w, l'.wBlock shapes w)]
  | .bias b => [(t.bBlock shapes b, l.bBlock shapes b, l'.bBlock shapes b)]

theorem Layer.triples_map (sep : Bool) (shapes : List (List Nat)) (l t l' : Layer ℝ) (ht : t.pos = l.pos) (hl : l'.pos = l.pos) :
    (l.triples sep shapes t l').map (fun b => b.2.1) = l.blocks sep shapes ∧
    (l.triples sep shapes t l').map (fun b => b.1) = t.blocks sep shapes ∧
    (l.triples sep shapes t l').map (fun b => b.2.2) = l'.blocks sep shapes := by
  unfold Layer.triples Layer.blocks
  rw [ht, hl]
  cases l.pos <;> simp only <;> try split
  all_goals exact ⟨rfl, rfl, rfl⟩

/-- The layer whose factors are `Ω` and `Φ`. -/
def Layer.withMats (Ω Φ : String → Mat ℝ) (l : Layer ℝ) : Layer ℝ := { l with A := ⟨l.A.dim, Ω l.name⟩, B := ⟨l.B.dim, Φ l.name⟩ }

/-- Specification: the factors of `l'` are `Ω A Ωᵀ` and `Φᵀ B Φ`. -/
structure LayerMapped (Ω Φ : String → Mat ℝ) (l l' : Layer ℝ) : Prop where
  name : l'.name = l.name
  pos : l'.pos = l.pos
  outDim : l'.B.dim = l.B.dim
  A : l.pos.hasWeight = true → l'.A.dim = l.A.dim ∧ ∀ i < l.A.dim, ∀ j < l.A.dim, l'.A.mat i j = congMat l.A.dim (Ω l.name) l.A.mat i j
  B : ∀ i < l.B.dim, ∀ j < l.B.dim, l'.B.mat i j = pullMat l.B.dim (Φ l.name) l.B.mat i j

theorem layers_pull {sep : Bool} {shapes : List (List Nat)} {Ω Φ : String → Mat ℝ} (layers : List (Layer ℝ)) (new : Layer ℝ → Layer ℝ)
    (hperm : (layers.flatMap fun l => l.pos.positions).Perm (List.range shapes.length)) (hfit : ∀ l ∈ layers, l.Fits sep shapes)
    (h : ∀ l ∈ layers, LayerMapped Ω Φ l (new l)) {T M M' : Mat ℝ} (hT : IsKron (kfacBlocks sep shapes (layers.map (Layer.withMats Ω Φ))) T)
    (hM : IsKron (kfacBlocks sep shapes layers) M) (hM' : IsKron (kfacBlocks sep shapes (layers.map new)) M') (r c : Nat)
    (hr : r < (shapes.map List.prod).sum) (hc : c < (shapes.map List.prod).sum) : M' r c = pullMat (shapes.map List.prod).sum T M r c := by
  have hmap : ∀ l ∈ layers, _ := fun l hl => Layer.triples_map sep shapes l (l.withMats Ω Φ) (new l) rfl (h l hl).pos
  have e0 : ∀ (F : KBlock ℝ × KBlock ℝ × KBlock ℝ → KBlock ℝ) (G : Layer ℝ → List (KBlock ℝ)),
      (∀ l ∈ layers, (l.triples sep shapes (l.withMats Ω Φ) (new l)).map F = G l) →
      (layers.flatMap fun l => l.triples sep shapes (l.withMats Ω Φ) (new l)).map F = layers.flatMap G := by
    intro F G hG
    rw [List.map_flatMap]
    exact congrArg List.flatten (List.map_congr_left hG)
  refine kron_pull (bs := layers.flatMap fun l => l.triples sep shapes (l.withMats Ω Φ) (new l)) ?_ ?_ ?_ ?_
    (by rw [e0 _ (fun l => (l.withMats Ω Φ).blocks sep shapes) fun l hl => (hmap l hl).2.1]; rw [kfacBlocks, List.flatMap_map] at hT; exact hT)
    (by rw [e0 _ (fun l => l.blocks sep shapes) fun l hl => (hmap l hl).1]; exact hM)
    (by rw [e0 _ (fun l => (new l).blocks sep shapes) fun l hl => (hmap l hl).2.2]; rw [kfacBlocks, List.flatMap_map] at hM'; exact hM')
    r c hr hc
  · rw [GTiles, ← range_flatMap_posCoords, List.flatMap_assoc]
    refine (perm_flatMap_of_forall _ (fun l => l.pos.positions.flatMap (posCoords shapes)) layers fun l hl => ?_).trans ?_
    · have := Layer.blocks_coords sep shapes l (hfit l hl)
      rw [← (hmap l hl).1, List.flatMap_map] at this
      exact this
    · rw [← List.flatMap_assoc]
      exact hperm.flatMap_right _
  · intro b hb
    obtain ⟨l, hl, hbl⟩ := List.mem_flatMap.mp hb
    have h1 := (h l hl).outDim
    unfold Layer.triples at hbl
    cases hp : l.pos <;> rw [hp] at hbl <;> simp only at hbl
    · split at hbl
      · simp only [List.mem_cons, List.not_mem_nil, or_false] at hbl
        rcases hbl with rfl | rfl <;> exact ⟨rfl, rfl, rfl, h1, rfl, rfl⟩
      · simp only [List.mem_singleton] at hbl
        subst hbl
        exact ⟨rfl, rfl, rfl, h1, rfl, rfl⟩
    · simp only [List.mem_singleton] at hbl
      subst hbl
      exact ⟨rfl, rfl, rfl, h1, rfl, rfl⟩
    · simp only [List.mem_singleton] at hbl
      subst hbl
      exact ⟨rfl, rfl, rfl, h1, rfl, rfl⟩
  · intro b hb i hi j hj
    obtain ⟨l, hl, hbl⟩ := List.mem_flatMap.mp hb
    have h1 := (h l hl).A
    have hone : (1 : ℝ) = congMat 1 (fun _ _ => 1) (fun _ _ => 1) i j := by simp [congMat, pullMat]
    have hf := hfit l hl
    unfold Layer.Fits at hf
    unfold Layer.triples at hbl
    cases hp : l.pos <;> rw [hp] at hbl hf h1 <;> simp only at hbl hf
    · have h2 := (h1 rfl).2
      split at hbl
      · rename_i hsep
        rw [hsep] at hf
        simp only [List.mem_cons, List.not_mem_nil, or_false] at hbl
        rcases hbl with rfl | rfl
        · rw [hf.2.2] at h2
          exact h2 i hi j hj
        · exact hone
      · rename_i hsep
        rw [if_neg hsep] at hf
        simp only [List.mem_singleton] at hbl
        subst hbl
        rw [hf.2.2] at h2
        exact h2 i hi j hj
    · have h2 := (h1 rfl).2
      simp only [List.mem_singleton] at hbl
      subst hbl
      rw [hf.2] at h2
      exact h2 i hi j hj
    · simp only [List.mem_singleton] at hbl
      subst hbl
      exact hone
  · intro b hb i hi j hj
    obtain ⟨l, hl, hbl⟩ := List.mem_flatMap.mp hb
    have h1 := (h l hl).B
    unfold Layer.triples at hbl
    cases hp : l.pos <;> rw [hp] at hbl <;> simp only at hbl
    · split at hbl
      · simp only [List.mem_cons, List.not_mem_nil, or_false] at hbl
        rcases hbl with rfl | rfl <;> exact h1 i hi j hj
      · simp only [List.mem_singleton] at hbl
        subst hbl
        exact h1 i hi j hj
    · simp only [List.mem_singleton] at hbl
      subst hbl
      exact h1 i hi j hj
    · simp only [List.mem_singleton] at hbl
      subst hbl
      exact h1 i hi j hj

/-! ## The operators -/

/-- Specification: what the hooks see of the data at all layers. -/
def DataMapped (cfg : KfacCfg) (klayers : List KLayer) (Ω Φ : String → Mat ℝ) (batches : List (List (KDatum × KDatum))) : Prop :=
  ∀ b ∈ batches, ∀ p ∈ b, ∀ l ∈ klayers, HookMapped cfg l (Ω l.name) (Φ l.name) p.1 p.2

/-- **C112** (matrix): KFAC after the change is `Tᵀ K T`, where `T` is the linear map `[W' b'] ↦ Φ [W' b'] Ω` of the parameters after the
change to those before. -/
theorem kfac_matrix_mapped {klayers : List KLayer} (hnd : (klayers.map KLayer.name).Nodup) {shapes : List (List Nat)}
    {mapping : Dict (Dict Nat)} {Ω Φ : String → Mat ℝ} {batches : List (List (KDatum × KDatum))} (hne : batches ≠ []) (hT : cfg.T ≠ 0)
    (hC : cfg.C ≠ 0) (hmc : cfg.mcSamples ≠ 0) (hf : ∀ kl ∈ klayers, FwdOk cfg kl (Φ kl.name)) {layers : List (Layer ℝ)}
    (hK : KfacLayers cfg.sep shapes mapping (kfacFactors cfg klayers (batches.map (·.map Prod.fst))).1
      (kfacFactors cfg klayers (batches.map (·.map Prod.fst))).2 layers)
    (hkl : ∀ l ∈ layers, ∃ kl ∈ klayers, kl.name = l.name ∧ kl.pos = l.pos.dict) (hS : ∀ kl ∈ klayers, kl.S ≠ 0)
    (hone : ∀ kl ∈ klayers, KeepsOne cfg kl (Ω kl.name)) (hd : DataMapped cfg klayers Ω Φ batches) :
    ∃ new : Layer ℝ → Layer ℝ, KfacLayers cfg.sep shapes mapping (kfacFactors cfg klayers (batches.map (·.map Prod.snd))).1
      (kfacFactors cfg klayers (batches.map (·.map Prod.snd))).2 (layers.map new) ∧ ∀ l ∈ layers, LayerMapped Ω Φ l (new l) := by
  have hd' : ∀ l ∈ klayers, ∀ p ∈ batches.flatten, HookMapped cfg l (Ω l.name) (Φ l.name) p.1 p.2 := fun l hl p hp => by
    obtain ⟨b, h1, h2⟩ := List.mem_flatten.mp hp
    exact hd b h1 p h2 l hl
  have hA : ∀ (proj : KDatum × KDatum → KDatum), ∀ kl ∈ klayers, kl.pos.has "weight" = true →
      (kfacFactors cfg klayers (batches.map (·.map proj))).1.get kl.name =
        some ⟨kl.din + (if kl.joint cfg then 1 else 0), specInputFactor cfg kl (batches.flatten.map proj)⟩ := fun proj kl hkl hw => by
    rw [kfac_input_factor cfg klayers hnd _ (by simpa using hne) kl hkl hw, List.map_flatten]
  have hB : ∀ (proj : KDatum × KDatum → KDatum), ∀ kl ∈ klayers,
      (kfacFactors cfg klayers (batches.map (·.map proj))).2.get kl.name =
        some ⟨kl.dout, specGradFactor cfg kl (batches.flatten.map proj)⟩ := fun proj kl hkl => by
    rw [kfac_grad_factor cfg klayers hnd _ (by simpa using hne) hT hC hmc kl hkl, List.map_flatten]
  let new : Layer ℝ → Layer ℝ := fun l => { l with
    A := ((kfacFactors cfg klayers (batches.map (·.map Prod.snd))).1.get l.name).getD l.A
    B := ((kfacFactors cfg klayers (batches.map (·.map Prod.snd))).2.get l.name).getD l.B }
  have hmapped : ∀ l ∈ layers, LayerMapped Ω Φ l (new l) ∧
      (l.pos.hasWeight = true → (kfacFactors cfg klayers (batches.map (·.map Prod.snd))).1.get l.name = some (new l).A) ∧
      (kfacFactors cfg klayers (batches.map (·.map Prod.snd))).2.get l.name = some (new l).B := by
    intro l hl
    obtain ⟨kl, hkl, hn, hp⟩ := hkl l hl
    have hwt : kl.pos.has "weight" = l.pos.hasWeight := by rw [hp, Dict.has_dict_weight]
    have b1 := hB Prod.fst kl hkl
    rw [hn, hK.gradCov_get l hl, Option.some.injEq] at b1
    have b2 := hB Prod.snd kl hkl
    rw [hn] at b2
    have b3 : (new l).B = ⟨kl.dout, specGradFactor cfg kl (batches.flatten.map Prod.snd)⟩ := by
      simp only [new, b2, Option.getD_some]
    refine ⟨⟨rfl, rfl, by rw [b3, b1], fun hw => ?_, fun i hi j hj => ?_⟩, fun hw => ?_, by rw [b2, b3]⟩
    · have a1 := hA Prod.fst kl hkl (hwt.trans hw)
      rw [hn, hK.inCov_get l hl hw, Option.some.injEq] at a1
      have a2 := hA Prod.snd kl hkl (hwt.trans hw)
      rw [hn] at a2
      have a3 : (new l).A = ⟨kl.din + (if kl.joint cfg then 1 else 0), specInputFactor cfg kl (batches.flatten.map Prod.snd)⟩ := by
        simp only [new, a2, Option.getD_some]
      rw [a3, a1, ← hn]
      exact ⟨rfl, fun i hi j hj => specInputFactor_mapped (hd' kl hkl) (hone kl hkl) (hS kl hkl) hi hj⟩
    · rw [b1] at hi hj
      rw [b3, b1, ← hn]
      exact specGradFactor_mapped (hf kl hkl) (hd' kl hkl) hi hj
    · have a2 := hA Prod.snd kl hkl (hwt.trans hw)
      rw [hn] at a2
      simp only [new, a2, Option.getD_some]
  refine ⟨new, ⟨?_, ?_, ?_, ?_, ?_⟩, fun l hl => (hmapped l hl).1⟩
  · rw [hK.mapping_eq, List.map_map]
    rfl
  · rw [List.flatMap_map]
    exact hK.perm
  · intro l' hl' hw
    obtain ⟨l, hl, rfl⟩ := List.mem_map.mp hl'
    exact (hmapped l hl).2.1 hw
  · intro l' hl'
    obtain ⟨l, hl, rfl⟩ := List.mem_map.mp hl'
    exact (hmapped l hl).2.2
  · intro l' hl'
    obtain ⟨l, hl, rfl⟩ := List.mem_map.mp hl'
    have hm := (hmapped l hl).1
    exact (hK.fits l hl).of_dims rfl (fun hw => (hm.A hw).1) hm.outDim

/-- **C112** (products): the KFAC operators before and after the change of layer inputs and outputs. -/
theorem kfac_pullback {klayers : List KLayer} (hnd : (klayers.map KLayer.name).Nodup) {shapes : List (List Nat)}
    {mapping : Dict (Dict Nat)} {Ω Φ : String → Mat ℝ} {batches : List (List (KDatum × KDatum))} (hne : batches ≠ []) (hT : cfg.T ≠ 0)
    (hC : cfg.C ≠ 0) (hmc : cfg.mcSamples ≠ 0) (hf : ∀ kl ∈ klayers, FwdOk cfg kl (Φ kl.name)) {layers : List (Layer ℝ)}
    (hK : KfacLayers cfg.sep shapes mapping (kfacFactors cfg klayers (batches.map (·.map Prod.fst))).1
      (kfacFactors cfg klayers (batches.map (·.map Prod.fst))).2 layers)
    (hkl : ∀ l ∈ layers, ∃ kl ∈ klayers, kl.name = l.name ∧ kl.pos = l.pos.dict) (hS : ∀ kl ∈ klayers, kl.S ≠ 0)
    (hone : ∀ kl ∈ klayers, KeepsOne cfg kl (Ω kl.name)) (hd : DataMapped cfg klayers Ω Φ batches) {T : Mat ℝ}
    (hTm : IsKron (kfacBlocks cfg.sep shapes (layers.map (Layer.withMats Ω Φ))) T) :
    IsPullback T
      (kfacOp shapes cfg.sep mapping (kfacFactors cfg klayers (batches.map (·.map Prod.fst))).1
        (kfacFactors cfg klayers (batches.map (·.map Prod.fst))).2)
      (kfacOp shapes cfg.sep mapping (kfacFactors cfg klayers (batches.map (·.map Prod.snd))).1
        (kfacFactors cfg klayers (batches.map (·.map Prod.snd))).2) := by
  obtain ⟨new, hK', hm⟩ := kfac_matrix_mapped hnd hne hT hC hmc hf hK hkl hS hone hd
  obtain ⟨M, hM⟩ := (kfac_matrix_exists _ _ _ _ _ _ hK).1
  obtain ⟨M', hM'⟩ := (kfac_matrix_exists _ _ _ _ _ _ hK').1
  refine pullback_of_represents rfl (kfac_represents _ _ _ _ _ _ hK M hM) (kfac_represents _ _ _ _ _ _ hK' M' hM') fun r hr c hc => ?_
  exact layers_pull layers new hK.perm hK.fits hm hTm hM hM' r c hr hc

/-! ## Inverses -/

theorem matInv_pull {N : Nat} {T M M' E E' : Mat ℝ} (hM : ∀ r < N, ∀ c < N, M' r c = pullMat N T M r c) (hE : MatInv N M E)
    (hE' : MatInv N M' E') : ∀ r < N, ∀ c < N, E r c = pullMat N (fun i j => T j i) E' r c := by
  let t : Matrix (Fin N) (Fin N) ℝ := Matrix.of fun i j => T i j
  let m : Matrix (Fin N) (Fin N) ℝ := Matrix.of fun i j => M i j
  let m' : Matrix (Fin N) (Fin N) ℝ := Matrix.of fun i j => M' i j
  let e : Matrix (Fin N) (Fin N) ℝ := Matrix.of fun i j => E i j
  let e' : Matrix (Fin N) (Fin N) ℝ := Matrix.of fun i j => E' i j
  have hsum : ∀ f : Nat → ℝ, ∑ i ∈ Finset.range N, f i = ∑ i : Fin N, f i := fun f => Finset.sum_range f
  have h1 : m' = t.transpose * (m * t) := by
    ext r c
    have := hM r r.2 c c.2
    simp only [m', Matrix.mul_apply, Matrix.transpose_apply, Matrix.of_apply, this, pullMat, hsum, Finset.mul_sum, t, m]
    exact Finset.sum_congr rfl fun _ _ => Finset.sum_congr rfl fun _ _ => by ring
  have h2 : e * m = 1 := by
    ext r c
    have := (hE r r.2 c c.2).2
    rw [hsum] at this
    simp only [Matrix.mul_apply, Matrix.of_apply, e, m, this, Matrix.one_apply, Fin.ext_iff]
  have h3 : m' * e' = 1 := by
    ext r c
    have := (hE' r r.2 c c.2).1
    rw [hsum] at this
    simp only [Matrix.mul_apply, Matrix.of_apply, e', m', this, Matrix.one_apply, Fin.ext_iff]
  rw [h1, Matrix.mul_assoc, mul_eq_one_comm, Matrix.mul_assoc, Matrix.mul_assoc] at h3
  have h4 : e = t * (e' * t.transpose) := by
    calc e = e * (m * (t * (e' * t.transpose))) := by rw [h3, Matrix.mul_one]
      _ = _ := by rw [← Matrix.mul_assoc, h2, Matrix.one_mul]
  intro r hr c hc
  have := congrFun (congrFun h4 ⟨r, hr⟩) ⟨c, hc⟩
  simp only [Matrix.mul_apply, Matrix.transpose_apply, Matrix.of_apply, e, e', t, Finset.mul_sum] at this
  rw [this]
  unfold pullMat
  simp only [hsum]
  exact Finset.sum_congr rfl fun _ _ => Finset.sum_congr rfl fun _ _ => by ring

theorem Factor.addDiag_zero (M : Factor ℝ) : M.addDiag 0 = M := by
  cases M
  simp [Factor.addDiag]

theorem Layer.damped_zero (l : Layer ℝ) : l.damped 0 0 = l := by
  cases l
  simp [Layer.damped, Factor.addDiag_zero]

/-- Specification: the factors of the layers are positive definite. -/
def FactorsPosDef (layers : List (Layer ℝ)) : Prop := ∀ l ∈ layers, (l.pos.hasWeight = true → l.A.PosDef) ∧ l.B.PosDef

/-- Positive definite matrices stay so under an invertible change of coordinates. -/
theorem posDef_pull {M M' : Factor ℝ} {D D' : Mat ℝ} (hdim : M'.dim = M.dim)
    (h : ∀ i < M.dim, ∀ j < M.dim, M'.mat i j = pullMat M.dim D M.mat i j) (hD : MatInv M.dim D D') (hM : M.PosDef) : M'.PosDef := by
  have hsym : ∀ i < M.dim, ∀ j < M.dim, M.mat i j = M.mat j i := hM.1
  refine ⟨fun i hi j hj => ?_, ?_⟩
  · rw [hdim] at hi hj
    rw [h i hi j hj, h j hj i hi]
    unfold pullMat
    rw [Finset.sum_comm]
    refine Finset.sum_congr rfl fun a ha => Finset.sum_congr rfl fun b hb => ?_
    rw [hsym b (Finset.mem_range.mp hb) a (Finset.mem_range.mp ha)]
    ring
  · rintro x ⟨i, hi, hx⟩
    rw [hdim] at hi ⊢
    have e : ∑ i ∈ Finset.range M.dim, ∑ j ∈ Finset.range M.dim, x i * M'.mat i j * x j =
        ∑ a ∈ Finset.range M.dim, ∑ b ∈ Finset.range M.dim, (∑ i ∈ Finset.range M.dim, D a i * x i) * M.mat a b *
          ∑ j ∈ Finset.range M.dim, D b j * x j := by
      have e1 : ∀ i ∈ Finset.range M.dim, ∀ j ∈ Finset.range M.dim, x i * M'.mat i j * x j = ∑ a ∈ Finset.range M.dim,
          ∑ b ∈ Finset.range M.dim, (D a i * x i) * M.mat a b * (D b j * x j) := by
        intro i hi j hj
        rw [h i (Finset.mem_range.mp hi) j (Finset.mem_range.mp hj), pullMat, Finset.mul_sum, Finset.sum_mul]
        refine Finset.sum_congr rfl fun a _ => ?_
        rw [Finset.mul_sum, Finset.sum_mul]
        exact Finset.sum_congr rfl fun b _ => by ring
      rw [Finset.sum_congr rfl fun i hi => Finset.sum_congr rfl fun j hj => e1 i hi j hj]
      have e2 : ∀ i ∈ Finset.range M.dim, ∑ j ∈ Finset.range M.dim, ∑ a ∈ Finset.range M.dim, ∑ b ∈ Finset.range M.dim,
          (D a i * x i) * M.mat a b * (D b j * x j) = ∑ a ∈ Finset.range M.dim, ∑ b ∈ Finset.range M.dim,
          (D a i * x i) * M.mat a b * ∑ j ∈ Finset.range M.dim, D b j * x j := by
        intro i _
        rw [Finset.sum_comm]
        refine Finset.sum_congr rfl fun a _ => ?_
        rw [Finset.sum_comm]
        exact Finset.sum_congr rfl fun b _ => (Finset.mul_sum _ _ _).symm
      rw [Finset.sum_congr rfl e2, Finset.sum_comm]
      refine Finset.sum_congr rfl fun a _ => ?_
      rw [Finset.sum_comm]
      refine Finset.sum_congr rfl fun b _ => ?_
      rw [Finset.sum_mul, Finset.sum_mul]
    rw [e]
    refine hM.2 (fun a => ∑ i ∈ Finset.range M.dim, D a i * x i) ?_
    by_contra hno
    push Not at hno
    refine hx ?_
    have h1 : x i = ∑ j ∈ Finset.range M.dim, (∑ a ∈ Finset.range M.dim, D' i a * D a j) * x j := by
      rw [Finset.sum_congr rfl fun j hj => by rw [(hD i hi j (Finset.mem_range.mp hj)).2]]
      simp [Finset.mem_range.mpr hi]
    rw [h1]
    simp only [Finset.sum_mul]
    rw [Finset.sum_comm]
    refine Finset.sum_eq_zero fun a ha => ?_
    have := hno a (Finset.mem_range.mp ha)
    simp only [mul_assoc, ← Finset.mul_sum, this, mul_zero]

variable {Θ B G Θ' B' G' : Type}

/-- **C112** (inverse without damping): for positive definite factors, `KFAC⁻¹` before the change is `T KFAC'⁻¹ Tᵀ`, where `KFAC'` is after
the change. Gradients are related by `g' = Tᵀ g`, so the steps `KFAC'⁻¹ g'` and `KFAC⁻¹ g` are the same: `T (KFAC'⁻¹ g') = KFAC⁻¹ g`. -/
theorem kfacInverse_pullback (w : KWorld Θ B G) (w' : KWorld Θ' B' G') (s₀ : KState Θ) (s₀' : KState Θ') (hf : s₀.IsFresh) (hf' : s₀'.IsFresh)
    (hg : w.Good s₀.cfg) (hg' : w'.Good s₀'.cfg) (hcfg : s₀'.cfg = s₀.cfg) (hw : w'.layers = w.layers)
    (batches : List (List (KDatum × KDatum))) (hb : w.batches s₀.model s₀.cfg (w.seeded s₀.seed) w.data = batches.map (·.map Prod.fst))
    (hb' : w'.batches s₀'.model s₀'.cfg (w'.seeded s₀'.seed) w'.data = batches.map (·.map Prod.snd)) {shapes : List (List Nat)}
    {layers : List (Layer ℝ)} (hK : KfacLayers s₀.cfg.sep shapes w.mapping (w.factors s₀).1 (w.factors s₀).2 layers)
    (hpd : FactorsPosDef layers) {Ω Ω' Φ Φ' : String → Mat ℝ} (hfor : ∀ kl ∈ w.layers, FwdOk s₀.cfg kl (Φ kl.name))
    (hinv : ∀ l ∈ layers, MatInv l.A.dim (Ω l.name) (Ω' l.name) ∧ MatInv l.B.dim (Φ l.name) (Φ' l.name))
    (hS : ∀ kl ∈ w.layers, kl.S ≠ 0) (hone : ∀ kl ∈ w.layers, KeepsOne s₀.cfg kl (Ω kl.name))
    (hd : DataMapped s₀.cfg w.layers Ω Φ batches) (la : LinAlg) (hla : la.Correct) (dt : FloatType) (icfg : InvCfg)
    (hex : icfg.exact = false) (hheu : icfg.heuristic = false) (hδ : icfg.damping = .value 0) {T : Mat ℝ}
    (hTm : IsKron (kfacBlocks s₀.cfg.sep shapes (layers.map (Layer.withMats Ω Φ))) T) :
    IsPullback (fun i j => T j i) (KInvState.op w' la dt shapes ⟨s₀', icfg, []⟩) (KInvState.op w la dt shapes ⟨s₀, icfg, []⟩) := by
  have hkl : ∀ l ∈ layers, ∃ kl ∈ w.layers, kl.name = l.name ∧ kl.pos = l.pos.dict := by
    intro l hl
    have h1 : (l.name, l.pos.dict) ∈ w.mapping := by
      rw [hK.mapping_eq]
      exact List.mem_map_of_mem hl
    obtain ⟨kl, hkl, he⟩ := List.mem_map.mp h1
    simp only [Prod.mk.injEq] at he
    exact ⟨kl, hkl, he.1, he.2⟩
  have hne : batches ≠ [] := by
    intro h
    have := batches_ne_nil w s₀.model s₀.cfg (w.seeded s₀.seed) hg.data
    rw [hb, h] at this
    exact this rfl
  have hfac : w.factors s₀ = kfacFactors s₀.cfg w.layers (batches.map (·.map Prod.fst)) := by unfold KWorld.factors; rw [hb]
  have hfac' : w'.factors s₀' = kfacFactors s₀.cfg w.layers (batches.map (·.map Prod.snd)) := by
    unfold KWorld.factors; rw [hb', hcfg, hw]
  have hmap : w'.mapping = w.mapping := by unfold KWorld.mapping; rw [hw]
  obtain ⟨new, hK', hm⟩ := kfac_matrix_mapped hg.names hne hg.T hg.C hg.mc hfor (hfac ▸ hK) hkl hS hone hd
  obtain ⟨M, hM⟩ := (kfac_matrix_exists _ _ _ _ _ _ hK).1
  obtain ⟨M', hM'⟩ := (kfac_matrix_exists _ _ _ _ _ _ hK').1
  have hpd' : FactorsPosDef (layers.map new) := by
    intro l' hl'
    obtain ⟨l, hl, rfl⟩ := List.mem_map.mp hl'
    have h1 := hm l hl
    refine ⟨fun hwt => ?_, posDef_pull h1.outDim h1.B (hinv l hl).2 (hpd l hl).2⟩
    rw [h1.pos] at hwt
    refine posDef_pull (D' := fun i j => Ω' l.name j i) (h1.A hwt).1 (h1.A hwt).2 (fun r hr c hc => ?_) ((hpd l hl).1 hwt)
    obtain ⟨e1, e2⟩ := (hinv l hl).1 c hc r hr
    refine ⟨?_, ?_⟩
    · rw [← Finset.sum_congr rfl fun m _ => mul_comm (Ω' l.name c m) (Ω l.name m r), e2]
      simp only [eq_comm]
    · rw [← Finset.sum_congr rfl fun m _ => mul_comm (Ω l.name c m) (Ω' l.name m r), e1]
      simp only [eq_comm]
  have hcomp : ∀ a b, computeDamping icfg a b = .ok (.fin 0, .fin 0) := by
    intro a b
    unfold computeDamping
    rw [hheu, hδ]
    rfl
  have hz : ∀ ls : List (Layer ℝ), ls.map (fun l => l.damped 0 0) = ls := fun ls => by simp [Layer.damped_zero]
  rw [← hmap, ← hfac', ← hcfg] at hK'
  obtain ⟨E, hE, hI⟩ := kfacInverse_damped w la hla dt shapes ⟨s₀, icfg, []⟩ (s₀.computed w) (ensureKfac_fresh w s₀ hf) layers hK
    (factors_bias_none w s₀ hg layers hK.mapping_eq) (CacheOk.nil _ _ _ _ _) hex (fun _ => 0) (fun _ => 0) (fun _ _ => hcomp _ _)
    (fun l hl hw => by rw [Factor.addDiag_zero]; exact (hpd l hl).1 hw) (fun l hl => by rw [Factor.addDiag_zero]; exact (hpd l hl).2) M
    (by rw [hz]; exact hM)
  obtain ⟨E', hE', hI'⟩ := kfacInverse_damped w' la hla dt shapes ⟨s₀', icfg, []⟩ (s₀'.computed w') (ensureKfac_fresh w' s₀' hf')
    (layers.map new) hK'
    (factors_bias_none w' s₀' hg' _ hK'.mapping_eq) (CacheOk.nil _ _ _ _ _) hex (fun _ => 0) (fun _ => 0) (fun _ _ => hcomp _ _)
    (fun l hl hw => by rw [Factor.addDiag_zero]; exact (hpd' l hl).1 hw) (fun l hl => by rw [Factor.addDiag_zero]; exact (hpd' l hl).2) M'
    (by rw [hz]; show IsKron (kfacBlocks s₀'.cfg.sep _ _) _; rw [hcfg]; exact hM')
  refine pullback_of_represents rfl hE' hE fun r hr c hc => ?_
  exact matInv_pull (fun r hr c hc => layers_pull layers new hK.perm hK.fits hm hTm hM hM' r c hr hc) hI hI' r hr c hc

/-! ## Networks -/

section net

variable {D T C : Nat} {k : LossKind}

/-- Specification: the layer with transformed inputs and outputs. `W'` and `b'` are the new values of weight and bias if these are not
among the parameters. -/
noncomputable def Stage.mapped (joint : Bool) (Ω Φ : Mat ℝ) (st : Stage D) (W' : Fin st.dout → Fin st.din → ℝ) (b' : Fin st.dout → ℝ) :
    Stage D where
  name := st.name
  pos := st.pos
  S := st.S
  din := st.din
  dout := st.dout
  W := W'
  b := b'
  pre := fun h z => ∑ j : Fin st.din, Ω z.2 j * st.pre h (z.1, j) + if joint then Ω z.2 st.din else 0
  post := fun hz => st.post (hz.1, fun z => ∑ p : Fin st.dout, Φ z.2 p * hz.2 (z.1, p))

/-- Specification: weight and bias of the layer `st` for `θ` are `Φ W' Ω` and `Φ (b' + W' shift)` for those of `st'` for `θ'`. -/
structure SameLayer (shapes : List (List Nat)) (joint : Bool) (Ω Φ : Mat ℝ) (θ θ' : Nat → ℝ) (st : Stage D)
    (W' : Fin st.dout → Fin st.din → ℝ) (b' : Fin st.dout → ℝ) : Prop where
  weight : ∀ o i, st.weight shapes θ o i =
    ∑ p : Fin st.dout, ∑ j : Fin st.din, Φ o p * (st.mapped joint Ω Φ W' b').weight shapes θ' p j * Ω j i
  bias : ∀ o, st.bias shapes θ o = ∑ p : Fin st.dout, Φ o p * ((st.mapped joint Ω Φ W' b').bias shapes θ' p +
    if joint then ∑ j : Fin st.din, (st.mapped joint Ω Φ W' b').weight shapes θ' p j * Ω j st.din else 0)

variable {shapes : List (List Nat)} {θ θ' : Nat → ℝ} {st : Stage D} {joint : Bool}

theorem SameLayer.layerOut {Ω Φ : Mat ℝ} {W' : Fin st.dout → Fin st.din → ℝ} {b' : Fin st.dout → ℝ}
    (h : SameLayer shapes joint Ω Φ θ θ' st W' b') (g : Fin D → ℝ) :
    st.layerOut shapes θ (st.pre g) = fun z => ∑ p : Fin st.dout, Φ z.2 p *
      (st.mapped joint Ω Φ W' b').layerOut shapes θ' ((st.mapped joint Ω Φ W' b').pre g) (z.1, p) := by
  funext z
  unfold Stage.layerOut
  rw [h.bias, Finset.sum_congr rfl fun i _ => by rw [h.weight]]
  set W := (st.mapped joint Ω Φ W' b').weight shapes θ' with hW
  set b := (st.mapped joint Ω Φ W' b').bias shapes θ' with hb
  have e : ∀ p : Fin st.dout, ∑ i : Fin st.din, W p i * (st.mapped joint Ω Φ W' b').pre g (z.1, i) =
      ∑ i : Fin st.din, (∑ j : Fin st.din, W p j * Ω j i) * st.pre g (z.1, i) +
        if joint then ∑ j : Fin st.din, W p j * Ω j st.din else 0 := by
    intro p
    simp only [Stage.mapped, mul_add, Finset.sum_add_distrib, Finset.mul_sum, Finset.sum_mul]
    rw [Finset.sum_comm]
    congr 1
    · exact Finset.sum_congr rfl fun _ _ => Finset.sum_congr rfl fun _ _ => by ring
    · cases joint <;> simp
  have e2 : ∀ p : Fin st.dout, Φ z.2 p * (∑ i : Fin st.din, W p i * (st.mapped joint Ω Φ W' b').pre g (z.1, i) + b p) =
      ∑ i : Fin st.din, ∑ j : Fin st.din, Φ z.2 p * W p j * Ω j i * st.pre g (z.1, i) +
        Φ z.2 p * (b p + if joint then ∑ j : Fin st.din, W p j * Ω j st.din else 0) := by
    intro p
    rw [e p, add_assoc, mul_add, add_comm (ite _ _ _), Finset.mul_sum]
    congr 1
    refine Finset.sum_congr rfl fun i _ => ?_
    rw [Finset.sum_mul, Finset.mul_sum]
    exact Finset.sum_congr rfl fun j _ => by ring
  refine Eq.trans ?_ (Finset.sum_congr rfl fun p _ => (e2 p).symm)
  rw [Finset.sum_add_distrib]
  congr 1
  rw [Finset.sum_comm]
  refine Finset.sum_congr rfl fun i _ => ?_
  rw [Finset.sum_mul]
  exact Finset.sum_congr rfl fun p _ => Finset.sum_mul _ _ _

theorem SameLayer.step {Ω Φ : Mat ℝ} {W' : Fin st.dout → Fin st.din → ℝ} {b' : Fin st.dout → ℝ}
    (h : SameLayer shapes joint Ω Φ θ θ' st W' b') (g : Fin D → ℝ) :
    (st.mapped joint Ω Φ W' b').step shapes θ' g = st.step shapes θ g := by
  unfold Stage.step
  rw [h.layerOut g]
  rfl

/-- Specification: a change of the inputs and outputs of all layers: matrices for each layer, and the new values of weights and biases
that are not among the parameters. -/
structure NetChange (D : Nat) where
  Ω : String → Mat ℝ
  Φ : String → Mat ℝ
  W' : (st : Stage D) → Fin st.dout → Fin st.din → ℝ
  b' : (st : Stage D) → Fin st.dout → ℝ

/-- Specification: the changed layer. -/
noncomputable def NetChange.stage (cfg : KfacCfg) (ch : NetChange D) (st : Stage D) : Stage D :=
  st.mapped (st.klayer.joint cfg) (ch.Ω st.name) (ch.Φ st.name) (ch.W' st) (ch.b' st)

/-- Specification: the changed network. -/
noncomputable def NetChange.net (cfg : KfacCfg) (ch : NetChange D) (net : SeqNet D T C) : SeqNet D T C :=
  ⟨net.stages.map (ch.stage cfg), net.out⟩

/-- Specification: `θ'` are the parameters of the changed network that belong to `θ`. -/
def NetChange.Same (cfg : KfacCfg) (shapes : List (List Nat)) (ch : NetChange D) (θ θ' : Nat → ℝ) (stages : List (Stage D)) : Prop :=
  ∀ st ∈ stages, SameLayer shapes (st.klayer.joint cfg) (ch.Ω st.name) (ch.Φ st.name) θ θ' st (ch.W' st) (ch.b' st)

variable {cfg : KfacCfg} {ch : NetChange D}

theorem NetChange.forward {stages : List (Stage D)} (h : ch.Same cfg shapes θ θ' stages) (g : Fin D → ℝ) :
    forward shapes θ' (stages.map (ch.stage cfg)) g = Curvlinops.forward shapes θ stages g := by
  induction stages generalizing g with
  | nil => rfl
  | cons st rest ih =>
    rw [List.map_cons, Curvlinops.forward, Curvlinops.forward, ih fun s hs => h s (by simp [hs])]
    exact congrArg _ ((h st (by simp)).step g)

/-- **C112** (predictions): the changed network predicts the same. -/
theorem NetChange.predict {net : SeqNet D T C} (h : ch.Same cfg shapes θ θ' net.stages) (g : Fin D → ℝ) :
    (ch.net cfg net).predict shapes g θ' = net.predict shapes g θ := by
  unfold SeqNet.predict NetChange.net
  rw [NetChange.forward h]

theorem NetChange.hookInput {stages : List (Stage D)} (h : ch.Same cfg shapes θ θ' stages) (hn : (stages.map Stage.name).Nodup)
    (g : Fin D → ℝ) {st : Stage D} (hst : st ∈ stages) {s i : Nat} (hs : s < st.S) (hi : i < st.din) :
    hookInput shapes θ' (stages.map (ch.stage cfg)) g st.name s i = ∑ j ∈ Finset.range st.din, ch.Ω st.name i j *
      Curvlinops.hookInput shapes θ stages g st.name s j + if st.klayer.joint cfg then ch.Ω st.name i st.din else 0 := by
  induction stages generalizing g with
  | nil => cases hst
  | cons a rest ih =>
    rw [List.map_cons, List.nodup_cons] at hn
    rcases List.mem_cons.mp hst with rfl | hst
    · rw [List.map_cons, Curvlinops.hookInput, if_pos (show (ch.stage cfg st).name = st.name from rfl), dif_pos ⟨hs, hi⟩, Finset.sum_range]
      simp only [Curvlinops.hookInput, if_true, hs, Fin.is_lt, and_self, dite_true, Fin.eta]
      rfl
    · have hne : a.name ≠ st.name := fun e => hn.1 (e ▸ List.mem_map_of_mem hst)
      rw [List.map_cons, Curvlinops.hookInput, if_neg (show (ch.stage cfg a).name ≠ st.name from hne)]
      simp only [Curvlinops.hookInput, if_neg hne]
      rw [show (ch.stage cfg a).step shapes θ' g = a.step shapes θ g from (h a (by simp)).step g]
      exact ih (fun s hs => h s (by simp [hs])) hn.2 _ hst

theorem pderiv_linear_change {S n : Nat} {G : (Fin S × Fin n → ℝ) → ℝ} (Φ : Mat ℝ) (z : Fin S × Fin n → ℝ)
    (hG : DifferentiableAt ℝ G fun a => ∑ p : Fin n, Φ a.2 p * z (a.1, p)) (s : Fin S) (o : Fin n) :
    pderiv (fun z => G fun a => ∑ p : Fin n, Φ a.2 p * z (a.1, p)) (s, o) z =
      ∑ p : Fin n, Φ p o * pderiv G (s, p) fun a => ∑ p : Fin n, Φ a.2 p * z (a.1, p) := by
  have hz : ∀ a : Fin S × Fin n, HasDerivAt (fun t => ∑ p : Fin n, Φ a.2 p * Function.update z (s, o) t (a.1, p))
      (if a.1 = s then Φ a.2 o else 0) (z (s, o)) := by
    intro a
    have h1 : ∀ p : Fin n, HasDerivAt (fun t => Φ a.2 p * Function.update z (s, o) t (a.1, p))
        (if a.1 = s ∧ p = o then Φ a.2 p else 0) (z (s, o)) := by
      intro p
      by_cases hp : a.1 = s ∧ p = o
      · obtain ⟨rfl, rfl⟩ := hp
        simp only [Function.update_self, and_self, if_true]
        simpa using (hasDerivAt_id' (z (a.1, p))).const_mul (Φ a.2 p)
      · have : (a.1, p) ≠ (s, o) := fun e => hp (by simpa using e)
        simp only [Function.update_of_ne this, if_neg hp]
        exact hasDerivAt_const _ _
    have h2 := HasDerivAt.fun_sum (u := Finset.univ) fun p _ => h1 p
    refine h2.congr_deriv ?_
    by_cases ha : a.1 = s
    · simp [ha]
    · simp [ha]
  have hu : (fun a : Fin S × Fin n => ∑ p : Fin n, Φ a.2 p * Function.update z (s, o) (z (s, o)) (a.1, p)) =
      fun a => ∑ p : Fin n, Φ a.2 p * z (a.1, p) := by
    rw [Function.update_eq_self]
  have := deriv_comp_pi (z := fun t (a : Fin S × Fin n) => ∑ p : Fin n, Φ a.2 p * Function.update z (s, o) t (a.1, p)) (t := z (s, o))
    (by rw [hu]; exact hG) hz
  unfold pderiv at this ⊢
  rw [this, hu, Fintype.sum_prod_type, Finset.sum_eq_single s]
  · exact Finset.sum_congr rfl fun p _ => by simp [mul_comm]
  · intro x _ hx
    simp [hx]
  · simp

theorem NetChange.hookGrad {stages : List (Stage D)} (h : ch.Same cfg shapes θ θ' stages) (hn : (stages.map Stage.name).Nodup)
    {R : (Fin D → ℝ) → ℝ} (g : Fin D → ℝ) (hd : DiffAlong shapes θ stages g)
    (hR : DifferentiableAt ℝ R (Curvlinops.forward shapes θ stages g)) {st : Stage D} (hst : st ∈ stages) {s o : Nat} (hs : s < st.S)
    (ho : o < st.dout) :
    hookGrad shapes θ' R (stages.map (ch.stage cfg)) g st.name s o = ∑ p ∈ Finset.range st.dout, ch.Φ st.name p o *
      Curvlinops.hookGrad shapes θ R stages g st.name s p := by
  induction stages generalizing g with
  | nil => cases hst
  | cons a rest ih =>
    rw [List.map_cons, List.nodup_cons] at hn
    obtain ⟨h1, h2, h3⟩ := hd
    rcases List.mem_cons.mp hst with rfl | hst
    · rw [List.map_cons, Curvlinops.hookGrad, if_pos (show (ch.stage cfg st).name = st.name from rfl), dif_pos ⟨hs, ho⟩, Finset.sum_range]
      simp only [Curvlinops.hookGrad, if_true, hs, Fin.is_lt, and_self, dite_true, Fin.eta]
      have hl := (h st (by simp)).layerOut g
      set z0 := (ch.stage cfg st).layerOut shapes θ' ((ch.stage cfg st).pre g) with hz0
      have hG : DifferentiableAt ℝ (fun z => R (Curvlinops.forward shapes θ rest (st.post (g, z)))) (st.layerOut shapes θ (st.pre g)) := by
        have e1 : DifferentiableAt ℝ (fun z => (g, z)) (st.layerOut shapes θ (st.pre g)) :=
          (differentiableAt_const g).prodMk differentiableAt_id
        have e2 := DifferentiableAt.comp (st.layerOut shapes θ (st.pre g)) h2 e1
        exact DifferentiableAt.comp _ hR (DifferentiableAt.comp _ (forward_differentiableAt h3) e2)
      have e : (fun z => R (Curvlinops.forward shapes θ' (rest.map (ch.stage cfg)) ((ch.stage cfg st).post (g, z)))) =
          fun z => R (Curvlinops.forward shapes θ rest (st.post (g, fun a => ∑ p : Fin st.dout, ch.Φ st.name a.2 p * z (a.1, p)))) := by
        funext z
        rw [NetChange.forward fun s hs => h s (by simp [hs])]
        rfl
      rw [e, hl]
      exact pderiv_linear_change (ch.Φ st.name) z0 (by rw [hl] at hG; exact hG) ⟨s, hs⟩ ⟨o, ho⟩
    · have hne : a.name ≠ st.name := fun e => hn.1 (e ▸ List.mem_map_of_mem hst)
      rw [List.map_cons, Curvlinops.hookGrad, if_neg (show (ch.stage cfg a).name ≠ st.name from hne)]
      simp only [Curvlinops.hookGrad, if_neg hne]
      rw [show (ch.stage cfg a).step shapes θ' g = a.step shapes θ g from (h a (by simp)).step g]
      exact ih (fun s hs => h s (by simp [hs])) hn.2 _ h3 hR hst

/-- What the hooks see of a datum on both networks. -/
theorem NetChange.hookMapped {net : SeqNet D T C} (h : ch.Same cfg shapes θ θ' net.stages) (hfit : net.Fits shapes) (hT : cfg.T = T)
    (hC : cfg.C = C) (x : NetInput D T C k) (hd : net.DiffAt shapes θ x.h) : ∀ kl ∈ net.klayers,
      HookMapped cfg kl (ch.Ω kl.name) (ch.Φ kl.name) (x.datum shapes net θ) (x.datum shapes (ch.net cfg net) θ') := by
  intro kl hkl
  obtain ⟨st, hst, rfl⟩ := List.mem_map.mp hkl
  refine ⟨fun s hs i hi => NetChange.hookInput h hfit.names x.h hst hs hi, fun s hs o ho t ht c hc => ?_, rfl, rfl⟩
  rw [hT] at ht
  rw [hC] at hc
  simp only [NetInput.datum, SeqNet.datum, ht, hc, and_self, dite_true]
  exact NetChange.hookGrad h hfit.names (R := fun z => net.out z ⟨t, ht⟩ ⟨c, hc⟩) x.h hd.stages (hd.out _ _) hst hs ho

/-- KFAC sees the same layers in the changed network. -/
theorem NetChange.klayers (net : SeqNet D T C) : (ch.net cfg net).klayers = net.klayers ∧ (ch.net cfg net).mapping = net.mapping := by
  unfold SeqNet.klayers SeqNet.mapping NetChange.net
  rw [List.map_map, List.map_map]
  exact ⟨rfl, rfl⟩

/-- Specification: the matrix of `[W' b'] ↦ Φ [W' b'] Ω`, for all layers. The factors of `layers` play no role. -/
def NetChange.IsParamMap (cfg : KfacCfg) (shapes : List (List Nat)) (ch : NetChange D) (net : SeqNet D T C) (M : Mat ℝ) : Prop :=
  IsKron (kfacBlocks cfg.sep shapes (net.stages.map fun st => ⟨st.name, st.pos,
    ⟨st.din + (if st.klayer.joint cfg then 1 else 0), ch.Ω st.name⟩, ⟨st.dout, ch.Φ st.name⟩⟩)) M

/-- **C112** (networks): KFAC on the changed network is the pullback of KFAC on the network under the map of the parameters, for the same
data, and the predictions (hence square roots of the loss Hessian and gradients of the loss) agree. -/
theorem seqNet_kfac_change {net : SeqNet D T C} {n : Nat} (hs : net.Setting cfg shapes n) (hf : ∀ st ∈ net.stages, FwdOk cfg st.klayer (ch.Φ st.name))
    (hone : ∀ st ∈ net.stages, KeepsOne cfg st.klayer (ch.Ω st.name)) (h : ch.Same cfg shapes θ θ' net.stages)
    (batches : List (List (NetInput D T C k))) (hne : batches ≠ []) (hd : ∀ b ∈ batches, ∀ x ∈ b, net.DiffAt shapes θ x.h) {M : Mat ℝ}
    (hM : ch.IsParamMap cfg shapes net M) :
    IsPullback M (net.kfac cfg shapes (batches.map (·.map (NetInput.datum shapes net θ))))
      ((ch.net cfg net).kfac cfg shapes (batches.map (·.map (NetInput.datum shapes (ch.net cfg net) θ')))) ∧
    ∀ x : NetInput D T C k, (∀ mean, x.SqrtOk shapes net θ mean → x.SqrtOk shapes (ch.net cfg net) θ' mean) ∧
      (x.GradOk shapes net θ → x.GradOk shapes (ch.net cfg net) θ') := by
  refine ⟨?_, fun x => ⟨fun mean hx => ?_, fun hx => ?_⟩⟩
  · let pairs : List (List (KDatum × KDatum)) :=
      batches.map (·.map fun x => (NetInput.datum shapes net θ x, NetInput.datum shapes (ch.net cfg net) θ' x))
    have h1 : batches.map (·.map (NetInput.datum shapes net θ)) = pairs.map (·.map Prod.fst) := by
      simp [pairs, Function.comp_def]
    have h2 : batches.map (·.map (NetInput.datum shapes (ch.net cfg net) θ')) = pairs.map (·.map Prod.snd) := by
      simp [pairs, Function.comp_def]
    have hp : pairs ≠ [] := by simpa [pairs] using hne
    have hTC : cfg.T ≠ 0 ∧ cfg.C ≠ 0 := ⟨by rw [hs.terms]; exact hs.T_ne, by rw [hs.outDim]; exact hs.C_ne⟩
    unfold SeqNet.kfac
    rw [(NetChange.klayers net).1, (NetChange.klayers net).2, h1, h2]
    refine kfac_pullback (SeqNet.klayers_names hs.fit) hp hTC.1 hTC.2 hs.mc (Φ := ch.Φ) (fun kl hkl => by obtain ⟨st, hst, rfl⟩ := List.mem_map.mp hkl; exact hf st hst)
      (seqNet_kfacLayers hs.fit hs.all (pairs.map (·.map Prod.fst)) (by simpa using hp) hTC.1 hTC.2 hs.mc) ?_ ?_ ?_ (Ω := ch.Ω) ?_ ?_
    · intro l hl
      obtain ⟨st, hst, rfl⟩ := List.mem_map.mp hl
      exact ⟨st.klayer, List.mem_map_of_mem hst, rfl, rfl⟩
    · intro kl hkl
      obtain ⟨st, hst, rfl⟩ := List.mem_map.mp hkl
      exact hs.S_ne st hst
    · intro kl hkl
      obtain ⟨st, hst, rfl⟩ := List.mem_map.mp hkl
      exact hone st hst
    · intro b hb p hp
      obtain ⟨b', hb', rfl⟩ := List.mem_map.mp hb
      obtain ⟨x, hx, rfl⟩ := List.mem_map.mp hp
      exact NetChange.hookMapped h hs.fit hs.terms hs.outDim x (hd b' hb' x hx)
    · unfold SeqNet.layers SeqNet.layersWith
      rw [List.map_map]
      exact hM
  · unfold NetInput.SqrtOk
    rw [NetChange.predict h]
    exact hx
  · unfold NetInput.GradOk
    rw [NetChange.predict h]
    exact hx

/-! ## Parameters of both networks -/

theorem block_eval {bs : List (KBlock ℝ)} {N : Nat} {M : Mat ℝ} (h : IsKron bs M) (ht : GTiles id bs N)
    (hθ : ∀ p < N, θ p = ∑ q ∈ Finset.range N, M p q * θ' q) {b : KBlock ℝ} (hb : b ∈ bs) {i j : Nat} (hi : i < b.rows) (hj : j < b.cols) :
    θ (b.idx i j) = ∑ i' ∈ Finset.range b.rows, ∑ j' ∈ Finset.range b.cols, b.B i i' * b.A j' j * θ' (b.idx i' j') := by
  obtain ⟨l, hl, rfl⟩ := List.getElem_of_mem hb
  exact (hθ _ (ht.lt l hl i hi j hj)).trans (BlockDiag.apply ((isKron_iff _ _).mp h) ht l hl i hi j hj θ')

/-- The layers with `Ω` and `Φ` as factors. -/
noncomputable def NetChange.layers (cfg : KfacCfg) (ch : NetChange D) (net : SeqNet D T C) : List (Layer ℝ) :=
  net.stages.map fun st => ⟨st.name, st.pos, ⟨st.din + (if st.klayer.joint cfg then 1 else 0), ch.Ω st.name⟩, ⟨st.dout, ch.Φ st.name⟩⟩

theorem NetChange.tiles {net : SeqNet D T C} {n : Nat} (hs : net.Setting cfg shapes n) :
    GTiles id (kfacBlocks cfg.sep shapes (ch.layers cfg net)) (shapes.map List.prod).sum := by
  have hK := seqNet_kfacLayers (cfg := cfg) hs.fit hs.all [[]] (by simp) (by rw [hs.terms]; exact hs.T_ne)
    (by rw [hs.outDim]; exact hs.C_ne) hs.mc
  have hfits : ∀ l ∈ ch.layers cfg net, l.Fits cfg.sep shapes := by
    intro l hl
    obtain ⟨st, hst, rfl⟩ := List.mem_map.mp hl
    exact (hK.fits _ (List.mem_map_of_mem hst)).of_dims rfl (fun _ => rfl) rfl
  have hperm := hK.perm
  unfold SeqNet.layers SeqNet.layersWith at hperm
  rw [List.flatMap_map] at hperm
  rw [GTiles, ← range_flatMap_posCoords, kfacBlocks, List.flatMap_assoc]
  refine (perm_flatMap_of_forall _ _ _ fun l hl => Layer.blocks_coords cfg.sep shapes l (hfits l hl)).trans ?_
  rw [← List.flatMap_assoc]
  refine List.Perm.flatMap_right _ ?_
  unfold NetChange.layers
  rw [List.flatMap_map]
  exact hperm

/-- Specification: the values of weights and biases that are not among the parameters. -/
def NetChange.Fixed (ch : NetChange D) (stages : List (Stage D)) : Prop :=
  ∀ st ∈ stages, (∀ b, st.pos = .bias b → ∀ o i, st.W o i =
      ∑ p : Fin st.dout, ∑ j : Fin st.din, ch.Φ st.name o p * ch.W' st p j * ch.Ω st.name j i) ∧
    ∀ w, st.pos = .weight w → ∀ o, st.b o = ∑ p : Fin st.dout, ch.Φ st.name o p * ch.b' st p

/-- If the parameters of the network are `θ = M θ'`, with the matrix `M` of `[W' b'] ↦ Φ [W' b'] Ω`, then both networks have corresponding
parameters. -/
theorem NetChange.same {net : SeqNet D T C} {n : Nat} (hs : net.Setting cfg shapes n)
    (hone : ∀ st ∈ net.stages, KeepsOne cfg st.klayer (ch.Ω st.name)) {M : Mat ℝ} (hM : ch.IsParamMap cfg shapes net M)
    (hfix : ch.Fixed net.stages) (hθ : ∀ p < (shapes.map List.prod).sum, θ p = ∑ q ∈ Finset.range (shapes.map List.prod).sum, M p q * θ' q) :
    ch.Same cfg shapes θ θ' net.stages := by
  intro st hst
  have hf := hs.fit.fits st hst
  unfold Stage.Fits at hf
  set l : Layer ℝ := ⟨st.name, st.pos, ⟨st.din + (if st.klayer.joint cfg then 1 else 0), ch.Ω st.name⟩, ⟨st.dout, ch.Φ st.name⟩⟩ with hl
  have hmem : ∀ b ∈ l.blocks cfg.sep shapes, b ∈ kfacBlocks cfg.sep shapes (ch.layers cfg net) :=
    fun b hb => List.mem_flatMap.mpr ⟨l, List.mem_map.mpr ⟨st, hst, rfl⟩, hb⟩
  have ev := fun b (hb : b ∈ l.blocks cfg.sep shapes) => @block_eval θ θ' _ _ M hM (NetChange.tiles hs) hθ b (hmem b hb)
  have hW : ∀ w, wCols shapes w = st.din → l.wBlock shapes w ∈ l.blocks cfg.sep shapes → ∀ (o : Fin st.dout) (i : Fin st.din),
      θ (offset shapes w + (o * st.din + i)) = ∑ p : Fin st.dout, ∑ j : Fin st.din,
        ch.Φ st.name o p * θ' (offset shapes w + (p * st.din + j)) * ch.Ω st.name j i := by
    intro w hc hb o i
    have := ev _ hb (i := o) (j := i) o.2 (by show (i : Nat) < wCols shapes w; rw [hc]; exact i.2)
    simp only [Layer.wBlock, hc, hl] at this
    rw [this, Finset.sum_range]
    refine Finset.sum_congr rfl fun p _ => ?_
    rw [Finset.sum_range]
    exact Finset.sum_congr rfl fun j _ => by ring
  have hB : ∀ b, l.bBlock shapes b ∈ l.blocks cfg.sep shapes → ∀ (o : Fin st.dout),
      θ (offset shapes b + o) = ∑ p : Fin st.dout, ch.Φ st.name o p * θ' (offset shapes b + p) := by
    intro b hb o
    have := ev _ hb (i := o) (j := 0) o.2 Nat.one_pos
    simp only [Layer.bBlock, hl, Finset.sum_range_one, mul_one] at this
    rw [this, Finset.sum_range]
  have hpos' : ∀ j W' b', (st.mapped j (ch.Ω st.name) (ch.Φ st.name) W' b').pos = st.pos := fun _ _ _ => rfl
  cases hp : st.pos with
  | weight w =>
    rw [hp] at hf
    have hj : st.klayer.joint cfg = false := by simp [KLayer.joint, Stage.klayer, hp, LayerPos.dict, Dict.has]
    rw [hj]
    refine ⟨fun o i => ?_, fun o => ?_⟩
    · simp only [Stage.weight, hpos', hp]
      exact hW w hf.2.2 (by simp [Layer.blocks, hl, hp]) o i
    · simp only [Stage.bias, hpos', hp, Bool.false_eq_true, if_false, add_zero]
      exact (hfix st hst).2 w hp o
  | bias b =>
    rw [hp] at hf
    have hj : st.klayer.joint cfg = false := by simp [KLayer.joint, Stage.klayer, hp, LayerPos.dict, Dict.has]
    rw [hj]
    refine ⟨fun o i => ?_, fun o => ?_⟩
    · simp only [Stage.weight, hpos', hp]
      exact (hfix st hst).1 b hp o i
    · simp only [Stage.bias, hpos', hp, Bool.false_eq_true, if_false, add_zero]
      exact hB b (by simp [Layer.blocks, hl, hp]) o
  | both w b =>
    rw [hp] at hf
    obtain ⟨-, -, -, hc, -⟩ := hf
    cases hsep : cfg.sep with
    | true =>
      have hj : st.klayer.joint cfg = false := by simp [KLayer.joint, Stage.klayer, hp, LayerPos.dict, Dict.has, hsep]
      rw [hj]
      refine ⟨fun o i => ?_, fun o => ?_⟩
      · simp only [Stage.weight, hpos', hp]
        exact hW w hc (by simp [Layer.blocks, hl, hp, hsep]) o i
      · simp only [Stage.bias, hpos', hp, Bool.false_eq_true, if_false, add_zero]
        exact hB b (by simp [Layer.blocks, hl, hp, hsep]) o
    | false =>
      have hj : st.klayer.joint cfg = true := by simp [KLayer.joint, Stage.klayer, hp, LayerPos.dict, Dict.has, hsep]
      have h1 : ∀ j ≤ st.din, ch.Ω st.name st.din j = if j = st.din then 1 else 0 := hone st hst hj
      have ev' : ∀ (o : Fin st.dout) (j : Nat), j ≤ st.din →
          θ (if j < st.din then offset shapes w + (o * st.din + j) else offset shapes b + o) = ∑ p : Fin st.dout,
            (∑ j' : Fin st.din, ch.Φ st.name o p * ch.Ω st.name j' j * θ' (offset shapes w + (p * st.din + j')) +
              ch.Φ st.name o p * ch.Ω st.name st.din j * θ' (offset shapes b + p)) := by
        intro o j hj
        have := ev (l.jBlock shapes w b) (by simp [Layer.blocks, hl, hp, hsep]) (i := o) (j := j) o.2
          (by show j < wCols shapes w + 1; omega)
        simp only [Layer.jBlock, hc, hl] at this
        rw [this, Finset.sum_range]
        refine Finset.sum_congr rfl fun p _ => ?_
        rw [Finset.sum_range_succ, Finset.sum_range]
        simp
      rw [hj]
      refine ⟨fun o i => ?_, fun o => ?_⟩
      · simp only [Stage.weight, hpos', hp]
        have := ev' o i i.2.le
        rw [if_pos i.2] at this
        refine this.trans (Finset.sum_congr rfl fun p _ => ?_)
        rw [h1 i i.2.le, if_neg i.2.ne, mul_zero, zero_mul, add_zero]
        exact Finset.sum_congr rfl fun j _ => by simp only [Stage.mapped]; ring
      · simp only [Stage.bias, Stage.weight, hpos', hp, if_true]
        have := ev' o st.din le_rfl
        rw [if_neg (lt_irrefl _)] at this
        refine this.trans (Finset.sum_congr rfl fun p _ => ?_)
        rw [h1 st.din le_rfl, if_pos rfl, mul_one, mul_add, add_comm, Finset.mul_sum]
        congr 1
        exact Finset.sum_congr rfl fun j _ => by simp only [Stage.mapped]; ring

/-! ## Gradients and steps -/

theorem block_eval_col {bs : List (KBlock ℝ)} {N : Nat} {M : Mat ℝ} (h : IsKron bs M) (ht : GTiles id bs N) (v : Nat → ℝ)
    {b : KBlock ℝ} (hb : b ∈ bs) {i j : Nat} (hi : i < b.rows) (hj : j < b.cols) :
    ∑ p ∈ Finset.range N, M p (b.idx i j) * v p =
      ∑ i' ∈ Finset.range b.rows, ∑ j' ∈ Finset.range b.cols, b.B i' i * b.A j j' * v (b.idx i' j') := by
  obtain ⟨l, hl, rfl⟩ := List.getElem_of_mem hb
  have h2 : BlockDiag id (fun b i j i' j' => kronEnt b i' j' i j) bs (fun r c => M c r) := by
    intro l hl l' hl' i hi j hj i' hi' j' hj'
    refine ((isKron_iff _ _).mp h l' hl' l hl i' hi' j' hj' i hi j hj).trans ?_
    by_cases hll : l = l'
    · subst hll
      simp only [if_true]
    · rw [if_neg hll, if_neg (Ne.symm hll)]
  exact BlockDiag.apply h2 ht l hl i hi j hj v

theorem NetChange.diffAlong {stages : List (Stage D)} (h : ch.Same cfg shapes θ θ' stages) {g : Fin D → ℝ}
    (hd : DiffAlong shapes θ stages g) : DiffAlong shapes θ' (stages.map (ch.stage cfg)) g := by
  induction stages generalizing g with
  | nil => trivial
  | cons st rest ih =>
    obtain ⟨h1, h2, h3⟩ := hd
    refine ⟨?_, ?_, ?_⟩
    · rw [differentiableAt_pi] at h1 ⊢
      intro z
      unfold NetChange.stage Stage.mapped
      dsimp only
      refine DifferentiableAt.add_const _ (DifferentiableAt.fun_sum fun j _ => ?_)
      exact (h1 (z.1, j)).const_mul _
    · have hl := (h st (by simp)).layerOut g
      rw [hl] at h2
      have e : DifferentiableAt ℝ (fun hz : (Fin D → ℝ) × (Fin st.S × Fin st.dout → ℝ) =>
          ((hz.1, fun z => ∑ p : Fin st.dout, ch.Φ st.name z.2 p * hz.2 (z.1, p)) : (Fin D → ℝ) × (Fin st.S × Fin st.dout → ℝ)))
          (g, (ch.stage cfg st).layerOut shapes θ' ((ch.stage cfg st).pre g)) := by
        fun_prop
      exact DifferentiableAt.comp (g := st.post) (f := fun hz : (Fin D → ℝ) × (Fin st.S × Fin st.dout → ℝ) =>
          ((hz.1, fun z => ∑ p : Fin st.dout, ch.Φ st.name z.2 p * hz.2 (z.1, p)) : (Fin D → ℝ) × (Fin st.S × Fin st.dout → ℝ))) _ h2 e
    · rw [show (ch.stage cfg st).step shapes θ' g = st.step shapes θ g from (h st (by simp)).step g]
      exact ih (fun s hs => h s (by simp [hs])) h3

theorem NetChange.fits {net : SeqNet D T C} (h : net.Fits shapes) : (ch.net cfg net).Fits shapes := by
  refine ⟨fun st hst => ?_, ?_, ?_⟩
  · obtain ⟨st', hst', rfl⟩ := List.mem_map.mp hst
    exact h.fits st' hst'
  · have := h.names
    unfold NetChange.net
    rw [List.map_map]
    exact this
  · have := h.positions
    unfold NetChange.net
    rw [List.flatMap_map]
    exact this

/-- **C112** (gradients): gradients of the changed network are `g' = Mᵀ g`. -/
theorem NetChange.gradient {net : SeqNet D T C} {n : Nat} (hs : net.Setting cfg shapes n)
    (hone : ∀ st ∈ net.stages, KeepsOne cfg st.klayer (ch.Ω st.name)) {M : Mat ℝ} (hM : ch.IsParamMap cfg shapes net M)
    (h : ch.Same cfg shapes θ θ' net.stages) {R : (Fin D → ℝ) → ℝ} (g : Fin D → ℝ) (hd : DiffAlong shapes θ net.stages g)
    (hR : DifferentiableAt ℝ R (Curvlinops.forward shapes θ net.stages g)) {q : Nat} (hq : q < (shapes.map List.prod).sum) :
    pderiv (fun θ => R (Curvlinops.forward shapes θ (ch.net cfg net).stages g)) q θ' = ∑ p ∈ Finset.range (shapes.map List.prod).sum,
      M p q * pderiv (fun θ => R (Curvlinops.forward shapes θ net.stages g)) p θ := by
  set v : Nat → ℝ := fun p => pderiv (fun θ => R (Curvlinops.forward shapes θ net.stages g)) p θ with hv
  have ht := NetChange.tiles (ch := ch) hs
  obtain ⟨k, hk, i, hi, j, hj, rfl⟩ := ht.surj q hq
  simp only [id] at hi hj ⊢
  generalize hb0 : (kfacBlocks cfg.sep shapes (ch.layers cfg net))[k] = b at hi hj ⊢
  have hb : b ∈ kfacBlocks cfg.sep shapes (ch.layers cfg net) := hb0 ▸ List.getElem_mem hk
  refine Eq.trans ?_ (block_eval_col hM ht v hb hi hj).symm
  obtain ⟨l, hl, hbl⟩ := List.mem_flatMap.mp hb
  obtain ⟨st, hst, rfl⟩ := List.mem_map.mp hl
  have hst' : ch.stage cfg st ∈ (ch.net cfg net).stages := List.mem_map_of_mem hst
  have hf' := NetChange.fits (cfg := cfg) (ch := ch) hs.fit
  have hd' : DiffAlong shapes θ' (ch.net cfg net).stages g := NetChange.diffAlong h hd
  have hR' : DifferentiableAt ℝ R (Curvlinops.forward shapes θ' (ch.net cfg net).stages g) := by
    rw [show Curvlinops.forward shapes θ' (ch.net cfg net).stages g = _ from NetChange.forward h g]
    exact hR
  have hf := hs.fit.fits st hst
  unfold Stage.Fits at hf
  have vW : ∀ {w}, (st.pos = .weight w ∨ ∃ b, st.pos = .both w b) → ∀ {o i : Nat}, o < st.dout → i < st.din →
      v (offset shapes w + (o * st.din + i)) = ∑ s ∈ Finset.range st.S, Curvlinops.hookGrad shapes θ R net.stages g st.name s o *
        Curvlinops.hookInput shapes θ net.stages g st.name s i := fun hw _ _ ho hi =>
    pderiv_weight net.stages hs.fit.fits hs.fit.names hs.fit.positions hd hR st hst hw ho hi
  have vB : ∀ {b}, (st.pos = .bias b ∨ ∃ w, st.pos = .both w b) → ∀ {o : Nat}, o < st.dout →
      v (offset shapes b + o) = ∑ s ∈ Finset.range st.S, Curvlinops.hookGrad shapes θ R net.stages g st.name s o := fun hb _ ho =>
    pderiv_bias net.stages hs.fit.fits hs.fit.names hs.fit.positions hd hR st hst hb ho
  have hG : ∀ {s o : Nat}, s ∈ Finset.range st.S → o < st.dout →
      Curvlinops.hookGrad shapes θ' R (ch.net cfg net).stages g st.name s o = _ := fun hsS ho =>
    NetChange.hookGrad h hs.fit.names g hd hR hst (Finset.mem_range.mp hsS) ho
  have hX : ∀ {s i : Nat}, s ∈ Finset.range st.S → i < st.din →
      Curvlinops.hookInput shapes θ' (ch.net cfg net).stages g st.name s i = _ := fun hsS hi =>
    NetChange.hookInput h hs.fit.names g hst (Finset.mem_range.mp hsS) hi
  have vW' : ∀ {w}, (st.pos = .weight w ∨ ∃ b, st.pos = .both w b) → ∀ {o i : Nat}, o < st.dout → i < st.din →
      pderiv (fun θ => R (Curvlinops.forward shapes θ (ch.net cfg net).stages g)) (offset shapes w + (o * st.din + i)) θ' =
        ∑ p ∈ Finset.range st.dout, ch.Φ st.name p o * ∑ s ∈ Finset.range st.S,
          Curvlinops.hookGrad shapes θ R net.stages g st.name s p *
          (∑ j ∈ Finset.range st.din, ch.Ω st.name i j * Curvlinops.hookInput shapes θ net.stages g st.name s j +
            if st.klayer.joint cfg then ch.Ω st.name i st.din else 0) := by
    intro w hw o i ho hi
    refine (pderiv_weight (ch.net cfg net).stages hf'.fits hf'.names hf'.positions hd' hR' _ hst' hw ho hi).trans ?_
    refine (Finset.sum_congr (s₁ := Finset.range st.S) rfl fun s hsS => by
      rw [show (ch.stage cfg st).name = st.name from rfl, hG hsS ho, hX hsS hi, Finset.sum_mul]).trans ?_
    rw [Finset.sum_comm]
    refine Finset.sum_congr rfl fun p _ => ?_
    rw [Finset.mul_sum]
    exact Finset.sum_congr rfl fun s _ => by ring
  have vB' : ∀ {b}, (st.pos = .bias b ∨ ∃ w, st.pos = .both w b) → ∀ {o : Nat}, o < st.dout →
      pderiv (fun θ => R (Curvlinops.forward shapes θ (ch.net cfg net).stages g)) (offset shapes b + o) θ' =
        ∑ p ∈ Finset.range st.dout, ch.Φ st.name p o * ∑ s ∈ Finset.range st.S,
          Curvlinops.hookGrad shapes θ R net.stages g st.name s p := by
    intro b hb o ho
    refine (pderiv_bias (ch.net cfg net).stages hf'.fits hf'.names hf'.positions hd' hR' _ hst' hb ho).trans ?_
    refine (Finset.sum_congr (s₁ := Finset.range st.S) rfl fun s hsS => by
      rw [show (ch.stage cfg st).name = st.name from rfl, hG hsS ho]).trans ?_
    rw [Finset.sum_comm]
    exact Finset.sum_congr rfl fun p _ => (Finset.mul_sum _ _ _).symm
  have caseW : ∀ {w}, (st.pos = .weight w ∨ ∃ b, st.pos = .both w b) → wCols shapes w = st.din → st.klayer.joint cfg = false →
      b = Layer.wBlock shapes ⟨st.name, st.pos, ⟨st.din + (if st.klayer.joint cfg then 1 else 0), ch.Ω st.name⟩,
        ⟨st.dout, ch.Φ st.name⟩⟩ w → pderiv (fun θ => R (Curvlinops.forward shapes θ (ch.net cfg net).stages g)) (b.idx i j) θ' =
      ∑ i' ∈ Finset.range b.rows, ∑ j' ∈ Finset.range b.cols, b.B i' i * b.A j j' * v (b.idx i' j') := by
    intro w hw hc hjt hbw
    subst hbw
    simp only [Layer.wBlock, hc] at hi hj ⊢
    rw [vW' hw hi hj]
    refine Finset.sum_congr rfl fun p hp => ?_
    simp only [hjt, Bool.false_eq_true, if_false, add_zero, Finset.mul_sum]
    rw [Finset.sum_comm]
    refine Finset.sum_congr rfl fun j' hj' => ?_
    rw [vW hw (Finset.mem_range.mp hp) (Finset.mem_range.mp hj'), Finset.mul_sum]
    exact Finset.sum_congr rfl fun s _ => by ring
  have caseB : ∀ {w}, (st.pos = .bias w ∨ ∃ b, st.pos = .both b w) →
      b = Layer.bBlock shapes ⟨st.name, st.pos, ⟨st.din + (if st.klayer.joint cfg then 1 else 0), ch.Ω st.name⟩,
        ⟨st.dout, ch.Φ st.name⟩⟩ w → pderiv (fun θ => R (Curvlinops.forward shapes θ (ch.net cfg net).stages g)) (b.idx i j) θ' =
      ∑ i' ∈ Finset.range b.rows, ∑ j' ∈ Finset.range b.cols, b.B i' i * b.A j j' * v (b.idx i' j') := by
    intro w hw hbw
    subst hbw
    simp only [Layer.bBlock, Finset.sum_range_one, mul_one] at hi hj ⊢
    rw [vB' hw hi]
    exact Finset.sum_congr rfl fun p hp => by rw [vB hw (Finset.mem_range.mp hp)]
  unfold Layer.blocks at hbl
  cases hp : st.pos with
  | weight w =>
    rw [hp] at hf
    simp only [hp, List.mem_singleton] at hbl
    exact caseW (.inl hp) hf.2.2 (by simp [KLayer.joint, Stage.klayer, hp, LayerPos.dict, Dict.has]) (by simpa only [hp] using hbl)
  | bias w =>
    simp only [hp, List.mem_singleton] at hbl
    exact caseB (.inl hp) (by simpa only [hp] using hbl)
  | both w a =>
    rw [hp] at hf
    cases hsep : cfg.sep with
    | true =>
      simp only [hp, hsep, if_true, List.mem_cons, List.not_mem_nil, or_false] at hbl
      rcases hbl with hbl | hbl
      · exact caseW (.inr ⟨a, hp⟩) hf.2.2.2.1 (by simp [KLayer.joint, Stage.klayer, hp, LayerPos.dict, Dict.has, hsep])
          (by simpa only [hp] using hbl)
      · exact caseB (.inr ⟨w, hp⟩) (by simpa only [hp] using hbl)
    | false =>
      have hjt : st.klayer.joint cfg = true := by simp [KLayer.joint, Stage.klayer, hp, LayerPos.dict, Dict.has, hsep]
      have h1 : ∀ j ≤ st.din, ch.Ω st.name st.din j = if j = st.din then 1 else 0 := hone st hst hjt
      simp only [hp, hsep, Bool.false_eq_true, if_false, List.mem_singleton] at hbl
      subst hbl
      simp only [Layer.jBlock, hf.2.2.2.1] at hi hj ⊢
      have hsum : ∀ p ∈ Finset.range st.dout, ∑ j' ∈ Finset.range (st.din + 1), ch.Φ st.name p i * ch.Ω st.name j j' *
          v (if j' < st.din then offset shapes w + (p * st.din + j') else offset shapes a + p) =
          ∑ j' ∈ Finset.range st.din, ch.Φ st.name p i * ch.Ω st.name j j' * (∑ s ∈ Finset.range st.S,
            Curvlinops.hookGrad shapes θ R net.stages g st.name s p * Curvlinops.hookInput shapes θ net.stages g st.name s j') +
          ch.Φ st.name p i * ch.Ω st.name j st.din * ∑ s ∈ Finset.range st.S, Curvlinops.hookGrad shapes θ R net.stages g st.name s p := by
        intro p hp'
        rw [Finset.sum_range_succ, if_neg (lt_irrefl _), vB (.inr ⟨w, hp⟩) (Finset.mem_range.mp hp')]
        congr 1
        refine Finset.sum_congr rfl fun j' hj' => ?_
        rw [if_pos (Finset.mem_range.mp hj'), vW (.inr ⟨a, hp⟩) (Finset.mem_range.mp hp') (Finset.mem_range.mp hj')]
      rw [Finset.sum_congr rfl hsum]
      by_cases hjd : j < st.din
      · rw [if_pos hjd, vW' (.inr ⟨a, hp⟩) hi hjd]
        refine Finset.sum_congr rfl fun p _ => ?_
        rw [if_pos hjt]
        simp only [mul_add, Finset.sum_add_distrib, Finset.mul_sum]
        congr 1
        · rw [Finset.sum_comm]
          exact Finset.sum_congr rfl fun _ _ => Finset.sum_congr rfl fun _ _ => by ring
        · exact Finset.sum_congr rfl fun _ _ => by ring
      · have hjd' : j = st.din := by omega
        subst hjd'
        rw [if_neg hjd, vB' (.inr ⟨w, hp⟩) hi]
        refine Finset.sum_congr rfl fun p _ => ?_
        rw [h1 st.din le_rfl, if_pos rfl, mul_one]
        refine (zero_add _).symm.trans (congrArg (· + _) (Finset.sum_eq_zero fun j' hj' => ?_).symm)
        rw [h1 j' (Finset.mem_range.mp hj').le, if_neg (Finset.mem_range.mp hj').ne, mul_zero, zero_mul]

/-- **C112** (inverse on networks): as `kfacInverse_pullback`, for a network and the changed network. -/
theorem seqNet_inverse_change {net : SeqNet D T C} {n : Nat} (hs : net.Setting cfg shapes n) (hnet : net.stages ≠ [])
    (hf : ∀ st ∈ net.stages, FwdOk cfg st.klayer (ch.Φ st.name)) (hone : ∀ st ∈ net.stages, KeepsOne cfg st.klayer (ch.Ω st.name)) (h : ch.Same cfg shapes θ θ' net.stages)
    {Ω' Φ' : String → Mat ℝ} (hinv : ∀ st ∈ net.stages, MatInv (st.din + (if st.klayer.joint cfg then 1 else 0)) (ch.Ω st.name) (Ω' st.name) ∧
      MatInv st.dout (ch.Φ st.name) (Φ' st.name)) (batches : List (List (NetInput D T C k))) (hne : batches ≠ [])
    (hd : ∀ b ∈ batches, ∀ x ∈ b, net.DiffAt shapes θ x.h)
    (hpd : FactorsPosDef (net.layers cfg (batches.flatten.map (NetInput.datum shapes net θ)))) {M : Mat ℝ}
    (hM : ch.IsParamMap cfg shapes net M) (seed seed' : Nat) (shp shp' : Nat × Nat) (pb pb' : Bool) (la : LinAlg) (hla : la.Correct)
    (dt : FloatType) (icfg : InvCfg) (hex : icfg.exact = false) (hheu : icfg.heuristic = false) (hδ : icfg.damping = .value 0) :
    IsPullback (fun i j => M j i)
      (KInvState.op ((ch.net cfg net).world shapes batches) la dt shapes ⟨.fresh θ' cfg seed' shp' pb', icfg, []⟩)
      (KInvState.op (net.world shapes batches) la dt shapes ⟨.fresh θ cfg seed shp pb, icfg, []⟩) := by
  let pairs : List (List (KDatum × KDatum)) :=
    batches.map (·.map fun x => (NetInput.datum shapes net θ x, NetInput.datum shapes (ch.net cfg net) θ' x))
  have h1 : batches.map (·.map (NetInput.datum shapes net θ)) = pairs.map (·.map Prod.fst) := by
    simp [pairs, Function.comp_def]
  have h2 : batches.map (·.map (NetInput.datum shapes (ch.net cfg net) θ')) = pairs.map (·.map Prod.snd) := by
    simp [pairs, Function.comp_def]
  have hTC : cfg.T ≠ 0 ∧ cfg.C ≠ 0 := ⟨by rw [hs.terms]; exact hs.T_ne, by rw [hs.outDim]; exact hs.C_ne⟩
  have hkl : net.klayers ≠ [] := by simpa [SeqNet.klayers] using hnet
  have hmap : (net.world shapes batches).mapping = net.mapping := by
    unfold KWorld.mapping SeqNet.mapping SeqNet.world SeqNet.klayers
    rw [List.map_map]
    rfl
  have hK := seqNet_kfacLayers (cfg := cfg) hs.fit hs.all (batches.map (·.map (NetInput.datum shapes net θ))) (by simpa using hne) hTC.1 hTC.2 hs.mc
  rw [← List.map_flatten] at hK
  refine kfacInverse_pullback (net.world shapes batches) ((ch.net cfg net).world shapes batches) (.fresh θ cfg seed shp pb)
    (.fresh θ' cfg seed' shp' pb') (KState.fresh_isFresh _ _ _ _ _) (KState.fresh_isFresh _ _ _ _ _)
    ⟨SeqNet.klayers_names hs.fit, hkl, hne, hTC.1, hTC.2, hs.mc⟩
    ⟨by show ((ch.net cfg net).klayers.map KLayer.name).Nodup; rw [(NetChange.klayers net).1]; exact SeqNet.klayers_names hs.fit,
      by show (ch.net cfg net).klayers ≠ []; rw [(NetChange.klayers net).1]; exact hkl, hne, hTC.1, hTC.2, hs.mc⟩ rfl
    (NetChange.klayers net).1 pairs ((seqNet_world_batches _ _ _ _ _ _ _).trans h1) ((seqNet_world_batches _ _ _ _ _ _ _).trans h2)
    (layers := net.layers cfg (batches.flatten.map (NetInput.datum shapes net θ))) ?_ hpd (Ω := ch.Ω) (Φ := ch.Φ) (Ω' := Ω') (Φ' := Φ')
    (fun kl hkl => by obtain ⟨st, hst, rfl⟩ := List.mem_map.mp hkl; exact hf st hst)
    ?_ ?_ ?_ ?_ la hla dt icfg hex hheu hδ ?_
  · rw [hmap]
    unfold KWorld.factors
    rw [show (net.world shapes batches).batches (KState.fresh θ cfg seed shp pb).model (KState.fresh θ cfg seed shp pb).cfg
      ((net.world shapes batches).seeded (KState.fresh θ cfg seed shp pb).seed) (net.world shapes batches).data = _ from
      seqNet_world_batches _ _ _ _ _ _ _]
    exact hK
  · intro l hl
    obtain ⟨st, hst, rfl⟩ := List.mem_map.mp hl
    exact hinv st hst
  · intro kl hkl
    obtain ⟨st, hst, rfl⟩ := List.mem_map.mp hkl
    exact hs.S_ne st hst
  · intro kl hkl
    obtain ⟨st, hst, rfl⟩ := List.mem_map.mp hkl
    exact hone st hst
  · intro b hb p hp
    obtain ⟨b', hb', rfl⟩ := List.mem_map.mp hb
    obtain ⟨x, hx, rfl⟩ := List.mem_map.mp hp
    exact NetChange.hookMapped h hs.fit hs.terms hs.outDim x (hd b' hb' x hx)
  · unfold SeqNet.layers SeqNet.layersWith
    rw [List.map_map]
    exact hM

/-- **C112** (steps): both networks predict the same after a step with the inverse KFAC, without damping, along the gradient (of any sum of
functions of the last states), with any step size. `X` and `X'` are the gradients in tensor list format. -/
theorem seqNet_step_change {net : SeqNet D T C} {n : Nat} (hs : net.Setting cfg shapes n) (hnet : net.stages ≠ [])
    (hf : ∀ st ∈ net.stages, FwdOk cfg st.klayer (ch.Φ st.name)) (hone : ∀ st ∈ net.stages, KeepsOne cfg st.klayer (ch.Ω st.name))
    {Ω' Φ' : String → Mat ℝ} (hinv : ∀ st ∈ net.stages, MatInv (st.din + (if st.klayer.joint cfg then 1 else 0)) (ch.Ω st.name) (Ω' st.name) ∧
      MatInv st.dout (ch.Φ st.name) (Φ' st.name)) (batches : List (List (NetInput D T C k))) (hne : batches ≠ [])
    {M : Mat ℝ} (hM : ch.IsParamMap cfg shapes net M) (hfix : ch.Fixed net.stages)
    (hθ : ∀ p < (shapes.map List.prod).sum, θ p = ∑ q ∈ Finset.range (shapes.map List.prod).sum, M p q * θ' q)
    (hd : ∀ b ∈ batches, ∀ x ∈ b, net.DiffAt shapes θ x.h)
    (hpd : FactorsPosDef (net.layers cfg (batches.flatten.map (NetInput.datum shapes net θ))))
    (seed seed' : Nat) (shp shp' : Nat × Nat) (pb pb' : Bool) (la : LinAlg) (hla : la.Correct)
    (dt : FloatType) (icfg : InvCfg) (hex : icfg.exact = false) (hheu : icfg.heuristic = false) (hδ : icfg.damping = .value 0)
    (R : NetInput D T C k → (Fin D → ℝ) → ℝ)
    (hR : ∀ x ∈ batches.flatten, DifferentiableAt ℝ (R x) (Curvlinops.forward shapes θ net.stages x.h)) (X X' : List (Tensor ℝ))
    (hX : HasShapes X shapes 1) (hX' : HasShapes X' shapes 1)
    (hg : ∀ p < (shapes.map List.prod).sum, (flatData X).getD p 0 =
      (batches.flatten.map fun x => pderiv (fun θ => R x (Curvlinops.forward shapes θ net.stages x.h)) p θ).sum)
    (hg' : ∀ p < (shapes.map List.prod).sum, (flatData X').getD p 0 =
      (batches.flatten.map fun x => pderiv (fun θ => R x (Curvlinops.forward shapes θ (ch.net cfg net).stages x.h)) p θ').sum) :
    ∃ Y Y',
      (LinOp.matmat (KInvState.op (net.world shapes batches) la dt shapes ⟨.fresh θ cfg seed shp pb, icfg, []⟩) X).1 = .ok Y ∧
      (LinOp.matmat (KInvState.op ((ch.net cfg net).world shapes batches) la dt shapes ⟨.fresh θ' cfg seed' shp' pb', icfg, []⟩) X').1 = .ok Y' ∧
      ∀ (η : ℝ) (z : Fin D → ℝ), net.predict shapes z (fun p => θ p - η * (flatData Y).getD p 0) =
        (ch.net cfg net).predict shapes z fun p => θ' p - η * (flatData Y').getD p 0 := by
  have h : ch.Same cfg shapes θ θ' net.stages := NetChange.same hs hone hM hfix hθ
  have hlen : ∀ {Z : List (Tensor ℝ)}, HasShapes Z shapes 1 → (flatData Z).length = (shapes.map List.prod).sum := fun hZ => by
    rw [hZ.flatData_length, mul_one]
  have hprod : IsProduct (fun i j => M j i) (shapes.map List.prod).sum (shapes.map List.prod).sum 1 (flatData X) (flatData X') := by
    refine ⟨by rw [hlen hX', mul_one], fun r hr k hk => ?_⟩
    obtain rfl : k = 0 := by omega
    simp only [mul_one, add_zero]
    rw [hg' r hr]
    have e1 : ∀ x ∈ batches.flatten, pderiv (fun θ => R x (Curvlinops.forward shapes θ (ch.net cfg net).stages x.h)) r θ' =
        ∑ p ∈ Finset.range (shapes.map List.prod).sum, M p r * pderiv (fun θ => R x (Curvlinops.forward shapes θ net.stages x.h)) p θ := by
      intro x hx
      obtain ⟨b, hb, hxb⟩ := List.mem_flatten.mp hx
      exact NetChange.gradient hs hone hM h x.h (hd b hb x hxb).stages (hR x hx) hr
    rw [List.map_congr_left e1, list_sum_finset_comm]
    refine Finset.sum_congr rfl fun p hp => ?_
    rw [hg p (Finset.mem_range.mp hp), List.sum_map_mul_left]
  obtain ⟨Y', Y, y1, y2, -, y3, y4⟩ := seqNet_inverse_change hs hnet hf hone h hinv batches hne hd hpd hM seed seed' shp shp' pb pb' la hla dt icfg
    hex hheu hδ 1 X X' hX hX' hprod
  refine ⟨Y, Y', y2, y1, fun η z => ?_⟩
  refine (NetChange.predict (NetChange.same hs hone hM hfix fun p hp => ?_) z).symm
  have e : (flatData Y).getD (p * 1 + 0) 0 = ∑ q ∈ Finset.range (shapes.map List.prod).sum, M p q * (flatData Y').getD (q * 1 + 0) 0 :=
    y4.2 p hp 0 Nat.one_pos
  simp only [mul_one, add_zero] at e
  rw [e, hθ p hp, Finset.mul_sum, ← Finset.sum_sub_distrib]
  exact Finset.sum_congr rfl fun q _ => by ring

/-- There is a matrix of `[W' b'] ↦ Φ [W' b'] Ω`. -/
theorem NetChange.exists_paramMap {net : SeqNet D T C} {n : Nat} (hs : net.Setting cfg shapes n) (ch : NetChange D) :
    ∃ M, ch.IsParamMap cfg shapes net M := by
  obtain ⟨M, hM⟩ := exists_blockDiag kronEnt (NetChange.tiles (ch := ch) hs)
  exact ⟨M, (isKron_iff _ _).mpr hM⟩

end net

/-! ## Example: standardized inputs -/

/-- The first layer of the network gets standardized inputs `(x - m) / σ`, the inputs of the second layer are doubled, its output tripled. -/
noncomputable def stdChange (m σ : Fin 2 → ℝ) : NetChange 2 where
  Ω := fun name i j => if name = "0" then
      (if i = 2 then (if j = 2 then 1 else 0) else if j = 2 then -(m (Fin.ofNat 2 i) / σ (Fin.ofNat 2 i))
        else if i = j then 1 / σ (Fin.ofNat 2 i) else 0)
    else if i = j then 2 else 0
  Φ := fun name i j => if name = "0" then (if i = j then 1 else 0) else 3
  W' := fun _ _ _ => 0
  b' := fun _ _ => 0

/-- The parameters of the network, for the parameters `θ'` of the changed network. -/
noncomputable def stdParams (m σ : Fin 2 → ℝ) (θ' : Nat → ℝ) : Nat → ℝ := fun p =>
  if p = 0 then θ' 0 / σ 0 else if p = 1 then θ' 1 / σ 1 else if p = 2 then θ' 2 / σ 0 else if p = 3 then θ' 3 / σ 1
  else if p = 4 then θ' 4 - θ' 0 * (m 0 / σ 0) - θ' 1 * (m 1 / σ 1)
  else if p = 5 then θ' 5 - θ' 2 * (m 0 / σ 0) - θ' 3 * (m 1 / σ 1)
  else 6 * θ' p

theorem stdChange_same (m σ : Fin 2 → ℝ) (θ' : Nat → ℝ) (fisher : FisherType) :
    (stdChange m σ).Same (expCfg fisher) expShapes (stdParams m σ θ') θ' expNet.stages := by
  intro st hst
  simp only [expNet, List.mem_cons, List.not_mem_nil, or_false] at hst
  have j1 : expStage1.klayer.joint (expCfg fisher) = true := rfl
  have j2 : expStage2.klayer.joint (expCfg fisher) = false := rfl
  rcases hst with rfl | rfl
  · rw [j1]
    constructor
    · show ∀ (o i : Fin 2), stdParams m σ θ' (offset expShapes 0 + (o * 2 + i)) = ∑ p : Fin 2, ∑ j : Fin 2,
        (stdChange m σ).Φ "0" o p * θ' (offset expShapes 0 + (p * 2 + j)) * (stdChange m σ).Ω "0" j i
      intro o i
      fin_cases o <;> fin_cases i <;> simp [stdParams, stdChange, offset, Fin.sum_univ_two] <;> ring
    · show ∀ (o : Fin 2), stdParams m σ θ' (offset expShapes 1 + o) = ∑ p : Fin 2, (stdChange m σ).Φ "0" o p *
        (θ' (offset expShapes 1 + p) + ∑ j : Fin 2, θ' (offset expShapes 0 + (p * 2 + j)) * (stdChange m σ).Ω "0" j 2)
      intro o
      fin_cases o <;> simp [stdParams, stdChange, offset, expShapes, Fin.sum_univ_two] <;> ring
  · rw [j2]
    constructor
    · show ∀ (o : Fin 1) (i : Fin 2), stdParams m σ θ' (offset expShapes 2 + (o * 2 + i)) = ∑ p : Fin 1, ∑ j : Fin 2,
        (stdChange m σ).Φ "2" o p * θ' (offset expShapes 2 + (p * 2 + j)) * (stdChange m σ).Ω "2" j i
      intro o i
      fin_cases o
      fin_cases i <;> simp [stdParams, stdChange, offset, expShapes, Fin.sum_univ_two] <;> ring
    · intro o
      simp [Stage.bias, Stage.mapped, expStage2, stdChange]

theorem stdChange_one (m σ : Fin 2 → ℝ) (fisher : FisherType) :
    ∀ st ∈ expNet.stages, KeepsOne (expCfg fisher) st.klayer ((stdChange m σ).Ω st.name) := by
  intro st hst
  simp only [expNet, List.mem_cons, List.not_mem_nil, or_false] at hst
  rcases hst with rfl | rfl
  · intro _ j hj
    simp [stdChange, expStage1, Stage.klayer]
    rfl
  · intro hj
    cases hj

/-- Standardizing the inputs changes KFAC (type-2, Monte-Carlo or empirical) by the linear map of the parameters, whatever the data. -/
example (m σ : Fin 2 → ℝ) (θ' : Nat → ℝ) (fisher : FisherType) (hf : fisher ≠ .forwardOnly) (x₁ x₂ x₃ : NetInput 2 1 1 .mse) :
    ∃ M, (stdChange m σ).IsParamMap (expCfg fisher) expShapes expNet M ∧
      IsPullback M
        (expNet.kfac (expCfg fisher) expShapes ([[x₁, x₂], [x₃]].map (·.map (NetInput.datum expShapes expNet (stdParams m σ θ')))))
        (((stdChange m σ).net (expCfg fisher) expNet).kfac (expCfg fisher) expShapes
          ([[x₁, x₂], [x₃]].map (·.map (NetInput.datum expShapes ((stdChange m σ).net (expCfg fisher) expNet) θ')))) := by
  obtain ⟨M, hM⟩ := NetChange.exists_paramMap (expNet_setting fisher) (stdChange m σ)
  exact ⟨M, hM, (seqNet_kfac_change (expNet_setting fisher) (fun st _ h => absurd h hf) (stdChange_one m σ fisher)
    (stdChange_same m σ θ' fisher) _ (by simp) (fun _ _ x _ => expNet_diff _ x.h) hM).1⟩

/-- The predictions are those of the network with exponential activations. -/
example (m σ : Fin 2 → ℝ) (θ' : Nat → ℝ) (fisher : FisherType) (h : Fin 2 → ℝ) :
    ((stdChange m σ).net (expCfg fisher) expNet).predict expShapes h θ' 0 0 =
      6 * θ' 6 * Real.exp (θ' 0 / σ 0 * h 0 + θ' 1 / σ 1 * h 1 + (θ' 4 - θ' 0 * (m 0 / σ 0) - θ' 1 * (m 1 / σ 1))) +
      6 * θ' 7 * Real.exp (θ' 2 / σ 0 * h 0 + θ' 3 / σ 1 * h 1 + (θ' 5 - θ' 2 * (m 0 / σ 0) - θ' 3 * (m 1 / σ 1))) := by
  rw [NetChange.predict (stdChange_same m σ θ' fisher), expNet_predict]
  simp [stdParams]

/-! ## Example: the step, with and without damping -/

/-- `Linear(1, 1, bias=False)` as the only layer. -/
noncomputable def lineNet : SeqNet 1 1 1 :=
  ⟨[⟨"0", .weight 0, 1, 1, 1, fun _ _ => 0, fun _ => 0, fun h x => h x.2, fun hz _ => hz.2 (0, 0)⟩], fun h _ _ => h 0⟩

theorem lineNet_setting : lineNet.Setting (expCfg .type2) [[1, 1]] 1 where
  fit := by
    refine ⟨?_, by simp [lineNet], by simp [lineNet, LayerPos.positions]⟩
    intro st hst
    simp only [lineNet, List.mem_singleton] at hst
    subst hst
    simp [Stage.Fits, wCols]
  all := by
    intro p hp
    have hp : p < 1 := hp
    exact ⟨_, by simp only [lineNet]; exact List.mem_singleton_self _, by simp [LayerPos.positions]; omega⟩
  N := rfl
  N_ne := by simp
  terms := rfl
  T_ne := by simp
  outDim := rfl
  C_ne := by simp
  mc := by simp [expCfg]
  S_ne := by
    intro st hst
    simp only [lineNet, List.mem_singleton] at hst
    subst hst
    simp

theorem lineNet_diff (θ : Nat → ℝ) (h : Fin 1 → ℝ) : lineNet.DiffAt [[1, 1]] θ h :=
  ⟨⟨by dsimp only; fun_prop, by dsimp only; fun_prop, trivial⟩, fun t c => by simp only [lineNet]; fun_prop⟩

/-- An input with label `y`. -/
noncomputable def lineInput (x y : ℝ) : NetInput 1 1 1 .mse := ⟨fun _ => x, fun _ _ => y, fun _ _ _ => Real.sqrt 2, fun _ _ _ => 0⟩

/-- The input of the layer is multiplied with `a`, its output with `c`. -/
noncomputable def lineChange (a c : ℝ) : NetChange 1 := ⟨fun _ _ _ => a, fun _ _ _ => c, fun _ _ _ => 0, fun _ _ => 0⟩

theorem pderiv_single (v : Fin 1 × Fin 1 → ℝ) (c : ℝ) : pderiv (fun z : Fin 1 × Fin 1 → ℝ => c * z (0, 0)) (0, 0) v = c := by
  simp [pderiv]

theorem lineNet_factors (θ : Nat → ℝ) (x y : ℝ) :
    (lineNet.layers (expCfg .type2) [(lineInput x y).datum [[1, 1]] lineNet θ]).map (fun l => (l.A.mat 0 0, l.B.mat 0 0)) = [(x * x, 2)] := by
  have := fun v => pderiv_single v 1
  simp only [one_mul] at this
  simp [SeqNet.layers, SeqNet.layersWith, lineNet, specInputFactor, specGradFactor, expCfg, Stage.klayer, specInputVec, specGradVec,
    specCotangents, specGradScale, NetInput.datum, SeqNet.datum, hookInput, hookGrad, lineInput, forward, this]

theorem lineChange_factors (θ : Nat → ℝ) (a c x y : ℝ) :
    (((lineChange a c).net (expCfg .type2) lineNet).layers (expCfg .type2)
      [(lineInput x y).datum [[1, 1]] ((lineChange a c).net (expCfg .type2) lineNet) θ]).map (fun l => (l.A.mat 0 0, l.B.mat 0 0)) =
      [(a * x * (a * x), 2 * c * c)] := by
  have hj : ∀ st : Stage 1, st.pos = .weight 0 → st.klayer.joint (expCfg .type2) = false := fun st h => by
    simp [KLayer.joint, Stage.klayer, h, LayerPos.dict, Dict.has]
  have := fun v => pderiv_single v c
  have h2 : c * Real.sqrt 2 * (c * Real.sqrt 2) = 2 * c * c := by
    rw [mul_mul_mul_comm, Real.mul_self_sqrt (by norm_num)]
    ring
  simp [SeqNet.layers, SeqNet.layersWith, lineNet, NetChange.net, NetChange.stage, Stage.mapped, lineChange, specInputFactor, specGradFactor, expCfg,
    Stage.klayer, KLayer.joint, LayerPos.dict, Dict.has, specInputVec, specGradVec,
    specCotangents, specGradScale, NetInput.datum, SeqNet.datum, hookInput, hookGrad, lineInput, forward, this, h2]

theorem lineNet_posDef (θ : Nat → ℝ) {x : ℝ} (hx : x ≠ 0) (y : ℝ) :
    FactorsPosDef (lineNet.layers (expCfg .type2) [(lineInput x y).datum [[1, 1]] lineNet θ]) := by
  have hone : ∀ (F : Factor ℝ), F.dim = 1 → 0 < F.mat 0 0 → F.PosDef := by
    intro F hF hp
    refine ⟨fun i hi j hj => ?_, ?_⟩
    · rw [hF] at hi hj
      obtain rfl : i = 0 := by omega
      obtain rfl : j = 0 := by omega
      rfl
    · rintro v ⟨i, hi, hv⟩
      rw [hF] at hi ⊢
      obtain rfl : i = 0 := by omega
      simp only [Finset.sum_range_one]
      have := mul_self_pos.mpr hv
      nlinarith [mul_pos this hp]
  intro l hl
  have h := lineNet_factors θ x y
  have hm := List.mem_map_of_mem (f := fun l : Layer ℝ => (l.A.mat 0 0, l.B.mat 0 0)) hl
  rw [h, List.mem_singleton, Prod.mk.injEq] at hm
  obtain ⟨st, hst, rfl⟩ := List.mem_map.mp hl
  simp only [lineNet, List.mem_singleton] at hst
  subst hst
  exact ⟨fun _ => hone _ rfl (by rw [hm.1]; exact mul_self_pos.mpr hx), hone _ rfl (by rw [hm.2]; norm_num)⟩

theorem lineChange_paramMap (a c : ℝ) : (lineChange a c).IsParamMap (expCfg .type2) [[1, 1]] lineNet fun _ _ => c * a := by
  rintro ⟨⟨l, hl⟩, i, j⟩ ⟨⟨l', hl'⟩, i', j'⟩
  have h1 : l = 0 := by simpa [kfacBlocks, lineNet, Layer.blocks, expCfg] using hl
  have h2 : l' = 0 := by simpa [kfacBlocks, lineNet, Layer.blocks, expCfg] using hl'
  subst h1
  subst h2
  simp only [KIdx.entry, if_true]
  rfl

theorem SeqNet.Setting.change {cfg : KfacCfg} {shapes : List (List Nat)} {net : SeqNet D T C} {n : Nat} (hs : net.Setting cfg shapes n)
    {ch : NetChange D} : (ch.net cfg net).Setting cfg shapes n where
  fit := NetChange.fits hs.fit
  all := by
    intro p hp
    obtain ⟨st, hst, h⟩ := hs.all p hp
    exact ⟨_, List.mem_map_of_mem hst, h⟩
  N := hs.N
  N_ne := hs.N_ne
  terms := hs.terms
  T_ne := hs.T_ne
  outDim := hs.outDim
  C_ne := hs.C_ne
  mc := hs.mc
  S_ne := by
    intro st hst
    obtain ⟨st', hst', rfl⟩ := List.mem_map.mp hst
    exact hs.S_ne st' hst'

/-- The inverse on networks whose only layer is `Linear(1, 1, bias=False)`: with factors `[α]`, `[β]` and the damping `δ`, it multiplies with
`1 / ((α + δ) (β + δ))`. -/
theorem line_inverse {net : SeqNet 1 1 1} (hs : net.Setting (expCfg .type2) [[1, 1]] 1) {st : Stage 1} (hst : net.stages = [st])
    (hpos : st.pos = .weight 0) (hdin : st.din = 1) (hdout : st.dout = 1) (θ : Nat → ℝ) (b : List (NetInput 1 1 1 .mse)) {α β : ℝ}
    (hF : (net.layers (expCfg .type2) (b.map (NetInput.datum [[1, 1]] net θ))).map (fun l => (l.A.mat 0 0, l.B.mat 0 0)) = [(α, β)])
    (seed : Nat) (shp : Nat × Nat) (pb : Bool) (la : LinAlg) (hla : la.Correct) (dt : FloatType) (icfg : InvCfg) (hex : icfg.exact = false)
    (hheu : icfg.heuristic = false) {δ : ℝ} (hδ : icfg.damping = .value δ) (hp : 0 < δ) :
    ∃ E, Represents (KInvState.op (net.world [[1, 1]] [b]) la dt [[1, 1]] ⟨.fresh θ (expCfg .type2) seed shp pb, icfg, []⟩) E ∧
      E 0 0 * ((α + δ) * (β + δ)) = 1 := by
  have hK := seqNet_kfacLayers (cfg := expCfg .type2) hs.fit hs.all [b.map (NetInput.datum [[1, 1]] net θ)] (by simp) (by rw [hs.terms]; exact hs.T_ne)
    (by rw [hs.outDim]; exact hs.C_ne) hs.mc
  have hmap : (net.world [[1, 1]] [b]).mapping = net.mapping := by
    unfold KWorld.mapping SeqNet.mapping SeqNet.world SeqNet.klayers
    rw [List.map_map]
    rfl
  have hd : ∀ l ∈ net.layers (expCfg .type2) (b.map (NetInput.datum [[1, 1]] net θ)),
      computeDamping icfg (((net.world [[1, 1]] [b]).factors (.fresh θ (expCfg .type2) seed shp pb)).1.get l.name)
        (((net.world [[1, 1]] [b]).factors (.fresh θ (expCfg .type2) seed shp pb)).2.get l.name) = .ok (.fin δ, .fin δ) := by
    intro l _
    unfold computeDamping
    rw [hheu, hδ]
    rfl
  have hkl : net.klayers ≠ [] := by simp [SeqNet.klayers, hst]
  have hD : IsKron (kfacBlocks (expCfg .type2).sep [[1, 1]] ((net.layers (expCfg .type2) (b.map (NetInput.datum [[1, 1]] net θ))).map
      fun l => l.damped δ δ)) fun _ _ => (β + δ) * (α + δ) := by
    clear hd hK hmap hkl
    generalize b.map (NetInput.datum [[1, 1]] net θ) = data at hF ⊢
    obtain ⟨name, pos, S, din, dout, W, bb, pre, post⟩ := st
    dsimp only at hpos hdin hdout
    subst hpos
    subst hdin
    subst hdout
    rw [SeqNet.layers, SeqNet.layersWith, hst] at hF ⊢
    simp only [List.map_cons, List.map_nil, List.cons.injEq, and_true, Prod.mk.injEq] at hF ⊢
    obtain ⟨h1, h2⟩ := hF
    rintro ⟨⟨l, hl⟩, i, j⟩ ⟨⟨l', hl'⟩, i', j'⟩
    have e1 : l = 0 := by simpa [kfacBlocks, Layer.blocks, Layer.damped, Stage.klayer, expCfg] using hl
    have e2 : l' = 0 := by simpa [kfacBlocks, Layer.blocks, Layer.damped, Stage.klayer, expCfg] using hl'
    subst e1
    subst e2
    have hi : (i : Nat) = 0 := Nat.lt_one_iff.mp i.2
    have hi' : (i' : Nat) = 0 := Nat.lt_one_iff.mp i'.2
    have hj : (j : Nat) = 0 := Nat.lt_one_iff.mp j.2
    have hj' : (j' : Nat) = 0 := Nat.lt_one_iff.mp j'.2
    simp only [KIdx.entry, if_true, hi, hi', hj, hj']
    rw [← h1, ← h2]
    simp [kfacBlocks, Layer.blocks, Layer.damped, Layer.wBlock, Factor.addDiag, expCfg]
  obtain ⟨E, hE, hi⟩ := kfacInverse_fresh_damped (net.world [[1, 1]] [b]) (.fresh θ (expCfg .type2) seed shp pb) (KState.fresh_isFresh _ _ _ _ _)
    ⟨SeqNet.klayers_names hs.fit, hkl, by simp [SeqNet.world], by rw [show (KState.fresh θ (expCfg .type2) seed shp pb).cfg = expCfg .type2 from rfl, hs.terms]; exact hs.T_ne,
      by rw [show (KState.fresh θ (expCfg .type2) seed shp pb).cfg = expCfg .type2 from rfl, hs.outDim]; exact hs.C_ne, hs.mc⟩ la hla dt [[1, 1]]
    (net.layers (expCfg .type2) (b.map (NetInput.datum [[1, 1]] net θ)))
    (by
      rw [hmap]
      unfold KWorld.factors
      rw [show (net.world [[1, 1]] [b]).batches (KState.fresh θ (expCfg .type2) seed shp pb).model (KState.fresh θ (expCfg .type2) seed shp pb).cfg
        ((net.world [[1, 1]] [b]).seeded (KState.fresh θ (expCfg .type2) seed shp pb).seed) (net.world [[1, 1]] [b]).data = _ from
        seqNet_world_batches _ _ _ _ _ _ _]
      simp only [List.flatten_cons, List.flatten_nil, List.append_nil] at hK
      exact hK) icfg hex (fun _ => δ) (fun _ => δ) hd (fun _ _ => hp) (fun _ _ => hp) (fun _ _ => (β + δ) * (α + δ)) hD
  refine ⟨E, hE, ?_⟩
  have := (hi 0 (by simp) 0 (by simp)).2
  simp only [List.map_cons, List.map_nil, List.prod_cons, List.prod_nil, mul_one, List.sum_cons, List.sum_nil, add_zero, Finset.sum_range_one, if_true] at this
  rw [mul_comm (α + δ)]
  exact this

theorem lineChange_one (a c : ℝ) : ∀ st ∈ lineNet.stages, KeepsOne (expCfg .type2) st.klayer ((lineChange a c).Ω st.name) := by
  intro st hst
  simp only [lineNet, List.mem_singleton] at hst
  subst hst
  intro h
  simp [KLayer.joint, Stage.klayer, LayerPos.dict, Dict.has, expCfg] at h

theorem lineChange_fixed (a c : ℝ) : (lineChange a c).Fixed lineNet.stages := by
  intro st hst
  simp only [lineNet, List.mem_singleton] at hst
  subst hst
  simp [lineChange]

theorem lineChange_inv {a c : ℝ} (ha : a ≠ 0) (hc : c ≠ 0) : ∀ st ∈ lineNet.stages,
    MatInv (st.din + (if st.klayer.joint (expCfg .type2) then 1 else 0)) ((lineChange a c).Ω st.name) (fun _ _ => 1 / a) ∧
      MatInv st.dout ((lineChange a c).Φ st.name) (fun _ _ => 1 / c) := by
  intro st hst
  simp only [lineNet, List.mem_singleton] at hst
  subst hst
  constructor
  · intro r hr q hq
    have h1 : (if (Stage.klayer (D := 1) ⟨"0", .weight 0, 1, 1, 1, fun _ _ => 0, fun _ => 0, fun h x => h x.2, fun hz _ => hz.2 (0, 0)⟩).joint
      (expCfg .type2) then 1 else 0) = 0 := rfl
    rw [h1] at hr hq ⊢
    obtain rfl : r = 0 := Nat.lt_one_iff.mp hr
    obtain rfl : q = 0 := Nat.lt_one_iff.mp hq
    simp [lineChange, ha]
  · intro r hr q hq
    obtain rfl : r = 0 := Nat.lt_one_iff.mp hr
    obtain rfl : q = 0 := Nat.lt_one_iff.mp hq
    simp [lineChange, hc]

/-- The inverse on the network with one weight, for all scalings `a`, `c` of its input and output. -/
example {a c x : ℝ} (ha : a ≠ 0) (hc : c ≠ 0) (hx : x ≠ 0) (y : ℝ) (θ' : Nat → ℝ) (seed seed' : Nat) (shp shp' : Nat × Nat) (pb pb' : Bool)
    (la : LinAlg) (hla : la.Correct) (dt : FloatType) (icfg : InvCfg) (hex : icfg.exact = false) (hheu : icfg.heuristic = false)
    (hδ : icfg.damping = .value 0) :
    IsPullback (fun _ _ => c * a)
      (KInvState.op (((lineChange a c).net (expCfg .type2) lineNet).world [[1, 1]] [[lineInput x y]]) la dt [[1, 1]]
        ⟨.fresh θ' (expCfg .type2) seed' shp' pb', icfg, []⟩)
      (KInvState.op (lineNet.world [[1, 1]] [[lineInput x y]]) la dt [[1, 1]]
        ⟨.fresh (fun _ => c * a * θ' 0) (expCfg .type2) seed shp pb, icfg, []⟩) :=
  seqNet_inverse_change (Ω' := fun _ _ _ => 1 / a) (Φ' := fun _ _ _ => 1 / c) lineNet_setting (by simp [lineNet])
    (fun st _ h => by simp [expCfg] at h) (lineChange_one a c)
    (NetChange.same lineNet_setting (lineChange_one a c) (lineChange_paramMap a c) (lineChange_fixed a c) (by intro p hp; simp))
    (lineChange_inv ha hc) [[lineInput x y]] (by simp) (fun _ _ _ _ => lineNet_diff _ _)
    (lineNet_posDef _ hx y) (lineChange_paramMap a c) seed seed' shp shp' pb pb' la hla dt icfg hex hheu hδ

/-- Steps on the network with one weight along the gradient of the squared error. -/
example {a c x : ℝ} (ha : a ≠ 0) (hc : c ≠ 0) (hx : x ≠ 0) (y : ℝ) (θ' : Nat → ℝ) (seed seed' : Nat) (shp shp' : Nat × Nat) (pb pb' : Bool)
    (la : LinAlg) (hla : la.Correct) (dt : FloatType) (icfg : InvCfg) (hex : icfg.exact = false) (hheu : icfg.heuristic = false)
    (hδ : icfg.damping = .value 0) :
    ∃ Y Y',
      (LinOp.matmat (KInvState.op (lineNet.world [[1, 1]] [[lineInput x y]]) la dt [[1, 1]]
        ⟨.fresh (fun _ => c * a * θ' 0) (expCfg .type2) seed shp pb, icfg, []⟩)
        [⟨[1, 1, 1], [pderiv (fun θ => (Curvlinops.forward [[1, 1]] θ lineNet.stages (lineInput x y).h 0 - y) ^ 2) 0 fun _ => c * a * θ' 0]⟩]).1 = .ok Y ∧
      (LinOp.matmat (KInvState.op (((lineChange a c).net (expCfg .type2) lineNet).world [[1, 1]] [[lineInput x y]]) la dt [[1, 1]]
        ⟨.fresh θ' (expCfg .type2) seed' shp' pb', icfg, []⟩)
        [⟨[1, 1, 1], [pderiv (fun θ => (Curvlinops.forward [[1, 1]] θ ((lineChange a c).net (expCfg .type2) lineNet).stages (lineInput x y).h 0 - y) ^ 2) 0 θ']⟩]).1 = .ok Y' ∧
      ∀ (η : ℝ) (z : Fin 1 → ℝ), lineNet.predict [[1, 1]] z (fun p => c * a * θ' 0 - η * (flatData Y).getD p 0) =
        ((lineChange a c).net (expCfg .type2) lineNet).predict [[1, 1]] z fun p => θ' p - η * (flatData Y').getD p 0 := by
  have hX : ∀ v : ℝ, HasShapes [⟨[1, 1, 1], [v]⟩] [[1, 1]] 1 := by
    intro v
    simp [HasShapes, Tensor.WF]
  refine seqNet_step_change (Ω' := fun _ _ _ => 1 / a) (Φ' := fun _ _ _ => 1 / c) lineNet_setting (by simp [lineNet])
    (fun st _ h => by simp [expCfg] at h) (lineChange_one a c)
    (lineChange_inv ha hc) [[lineInput x y]] (by simp) (lineChange_paramMap a c) (lineChange_fixed a c) (by intro p hp; simp) (fun _ _ _ _ => lineNet_diff _ _)
    (lineNet_posDef _ hx y) seed seed' shp shp' pb pb' la hla dt icfg hex hheu hδ (fun _ h => (h 0 - y) ^ 2) ?_ _ _ (hX _) (hX _) ?_ ?_
  · intro z _
    fun_prop
  · intro p hp
    obtain rfl : p = 0 := by simpa using hp
    simp [flatData]
  · intro p hp
    obtain rfl : p = 0 := by simpa using hp
    simp [flatData]

/-- **C112** (limits): with damping, KFAC's inverse depends on the scales of the inputs. -/
theorem kfacInverse_damping_not_invariant (y : ℝ) (θ' : Nat → ℝ) (seed seed' : Nat) (shp shp' : Nat × Nat) (pb pb' : Bool)
    (la : LinAlg) (hla : la.Correct) (dt : FloatType) (icfg : InvCfg) (hex : icfg.exact = false) (hheu : icfg.heuristic = false) {δ : ℝ}
    (hp : 0 < δ) (hδ : icfg.damping = .value δ) :
    ¬ IsPullback (fun _ _ => 2)
      (KInvState.op (((lineChange 2 1).net (expCfg .type2) lineNet).world [[1, 1]] [[lineInput 1 y]]) la dt [[1, 1]]
        ⟨.fresh θ' (expCfg .type2) seed' shp' pb', icfg, []⟩)
      (KInvState.op (lineNet.world [[1, 1]] [[lineInput 1 y]]) la dt [[1, 1]]
        ⟨.fresh (fun _ => 2 * θ' 0) (expCfg .type2) seed shp pb, icfg, []⟩) := by
  intro h
  obtain ⟨E, hE, hE1⟩ := line_inverse lineNet_setting (st := _) rfl rfl rfl rfl (fun _ => 2 * θ' 0) [lineInput 1 y] (α := 1) (β := 2)
    (by simpa using lineNet_factors (fun _ => 2 * θ' 0) 1 y) seed shp pb la hla dt icfg hex hheu hδ hp
  obtain ⟨E', hE', hE1'⟩ := line_inverse (net := (lineChange 2 1).net (expCfg .type2) lineNet) lineNet_setting.change (st := _) rfl rfl rfl rfl θ' [lineInput 1 y] (α := 4) (β := 2)
    (by
      have := lineChange_factors θ' 2 1 1 y
      rw [show (2 : ℝ) * 1 * (2 * 1) = 4 by norm_num, show (2 : ℝ) * 1 * 1 = 2 by norm_num] at this
      exact this) seed' shp' pb' la hla dt icfg hex hheu hδ hp
  have hX : ∀ v : ℝ, HasShapes [⟨[1, 1, 1], [v]⟩] [[1, 1]] 1 := by
    intro v
    simp [HasShapes, Tensor.WF]
  obtain ⟨Y, Y', h1, h2, -, -, h3⟩ := h 1 [⟨[1, 1, 1], [1]⟩] [⟨[1, 1, 1], [2]⟩] (hX 1) (hX 2) (by
    refine ⟨rfl, fun r hr k hk => ?_⟩
    obtain rfl : r = 0 := Nat.lt_one_iff.mp hr
    obtain rfl : k = 0 := Nat.lt_one_iff.mp hk
    show (2 : ℝ) = ∑ c ∈ Finset.range 1, 2 * [(1 : ℝ)].getD (c * 1 + 0) 0
    simp)
  obtain ⟨Z, z1, -, z2⟩ := hE' 1 _ (hX 2)
  obtain ⟨Z', z1', -, z2'⟩ := hE 1 _ (hX 1)
  obtain rfl : Y = Z := by
    rw [h1] at z1
    exact Except.ok.inj z1
  obtain rfl : Y' = Z' := by
    rw [h2] at z1'
    exact Except.ok.inj z1'
  have e1 := z2.2 0 Nat.one_pos 0 Nat.one_pos
  have e2 := z2'.2 0 Nat.one_pos 0 Nat.one_pos
  have e3 := h3.2 0 Nat.one_pos 0 Nat.one_pos
  have f1 : (flatData Y).getD 0 0 = E' 0 0 * 2 := e1.trans (Finset.sum_range_one _)
  have f2 : (flatData Y').getD 0 0 = E 0 0 * 1 := e2.trans (Finset.sum_range_one _)
  have f3 : (flatData Y').getD 0 0 = 2 * (flatData Y).getD 0 0 := e3.trans (Finset.sum_range_one _)
  rw [f1, f2] at f3
  have g : E 0 0 = 4 * E' 0 0 := by linarith
  rw [g] at hE1
  have hne : E' 0 0 * (2 + δ) * (3 * δ) = 0 := by linear_combination hE1 - hE1'
  rcases mul_eq_zero.mp hne with h0 | h0
  · have : E' 0 0 * ((4 + δ) * (2 + δ)) = (4 + δ) * (E' 0 0 * (2 + δ)) := by ring
    rw [this, h0] at hE1'
    simp at hE1'
  · linarith

end Curvlinops
