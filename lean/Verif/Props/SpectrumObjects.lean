import Verif.Model.SpectrumObjects
import Verif.Props.SpectrumAverages

/-!
# C91: Cached spectrum objects over the life of a program
-/

namespace Curvlinops

variable {Op : Type}

/-! ## Requests -/

/-- The function that turns one run of `fast_lanczos` into a density. -/
noncomputable def densityOf (kind : SpectrumKind) (b : ℝ × ℝ) (args : DensityArgs) (it : LanczosIter) : Py (List ℝ × List ℝ) :=
  match kind with
  | .plain => spectrumFromIter it b args.numPoints args.kappa args.margin
  | .log => logSpectrumFromIter it b args.numPoints args.kappa args.margin args.epsilon

theorem request_eq (fast : LanczosWorld Op) (o : SpectrumObject Op) (calls : Nat) (n : Int) (args : DensityArgs) :
    o.request fast calls n args =
      ((cachedSpectrum (fast o.op o.ncv) (densityOf o.kind o.boundaries args) ⟨o.iters, calls⟩ n).1,
       { o with iters := (cachedSpectrum (fast o.op o.ncv) (densityOf o.kind o.boundaries args) ⟨o.iters, calls⟩ n).2.iters },
       (cachedSpectrum (fast o.op o.ncv) (densityOf o.kind o.boundaries args) ⟨o.iters, calls⟩ n).2.calls) := by
  obtain ⟨kind, A, ncv, b, its⟩ := o
  cases kind <;> rfl

theorem callSpectrum_eq (fast : LanczosWorld Op) (eigsh : EigshWorld Op) (kind : SpectrumKind) (A : Op) (ncv calls : Nat)
    (n : Int) (boundaries : Boundaries) (tol : ℝ) (args : DensityArgs) (b : ℝ × ℝ)
    (hb : (kind.boundaries (eigsh A tol) boundaries).1 = .ok b) :
    (callSpectrum fast eigsh kind A ncv calls n boundaries tol args).1 =
      repeatLoop (fast A ncv) (densityOf kind b args) calls 0 none (List.replicate args.numPoints 0) n.toNat := by
  cases kind
  · simp only [SpectrumKind.boundaries] at hb
    simp only [callSpectrum, lanczosSpectrum, hb]
    rfl
  · simp only [SpectrumKind.boundaries] at hb
    simp only [callSpectrum, lanczosLogSpectrum, hb]
    rfl

theorem densityOf_length (kind : SpectrumKind) (b : ℝ × ℝ) (args : DensityArgs) (it : LanczosIter) (r : List ℝ × List ℝ)
    (h : densityOf kind b args it = .ok r) : r.2.length = args.numPoints := by
  cases kind
  · exact (spectrumFromIter_ok h).2.2
  · exact (logSpectrumFromIter_ok h).2.1

theorem densityOf_grid (kind : SpectrumKind) (b : ℝ × ℝ) (args : DensityArgs) (it it' : LanczosIter) (r r' : List ℝ × List ℝ)
    (h : densityOf kind b args it = .ok r) (h' : densityOf kind b args it' = .ok r') : r.1 = r'.1 := by
  cases kind
  · exact (spectrumFromIter_ok h).2.1.trans (spectrumFromIter_ok h').2.1.symm
  · exact (logSpectrumFromIter_ok h').2.2 _ _ h

/-- The state of the cache after a request is that after drawing the missing iterations, whether or not the density can be
computed. -/
theorem cachedSpectrum_state (src : LanczosSource) (f : LanczosIter → Py (List ℝ × List ℝ)) (st : SpectrumCache) (n : Int) :
    (cachedSpectrum src f st n).2 = (getLanczosIters src st n).2 := by
  unfold cachedSpectrum
  rcases getLanczosIters src st n with ⟨r, st'⟩
  cases r with
  | error e => rfl
  | ok its =>
    simp only
    cases its.mapM f with
    | error e => rfl
    | ok l => cases l <;> rfl

/-- The runs of `fast_lanczos` determine the result of a request. -/
theorem cachedSpectrum_result (src src' : LanczosSource) (f : LanczosIter → Py (List ℝ × List ℝ)) (st st' : SpectrumCache)
    (n : Int) (its : List LanczosIter) (h : (getLanczosIters src st n).1 = .ok its)
    (h' : (getLanczosIters src' st' n).1 = .ok its) : (cachedSpectrum src f st n).1 = (cachedSpectrum src' f st' n).1 := by
  unfold cachedSpectrum
  rcases hg : getLanczosIters src st n with ⟨r, s⟩
  rcases hg' : getLanczosIters src' st' n with ⟨r', s'⟩
  rw [hg] at h
  rw [hg'] at h'
  simp only at h h'
  subst h h'
  simp only
  cases its.mapM f with
  | error e => rfl
  | ok l => cases l <;> rfl

/-- A new cache. -/
theorem getLanczosIters_fresh (src : LanczosSource) (c : Nat) (its : List LanczosIter)
    (h : ∀ k (hk : k < its.length), src (c + k) = .ok its[k]) :
    (getLanczosIters src ⟨[], c⟩ its.length).1 = .ok its := by
  obtain ⟨new, g1, g2, g3⟩ := getLanczosIters_spec src ⟨[], c⟩ its.length
  simp only [List.nil_append, List.length_nil, Nat.sub_zero] at g1 g2 g3
  rcases g3 with ⟨a1, -, a3, -⟩ | ⟨e, -, b2, b3, -⟩
  · rw [a1]
    congr 1
    rw [List.take_of_length_le (by omega)]
    refine List.ext_getElem a3 fun k hk hk' => ?_
    have := g2 k hk
    rw [h k hk'] at this
    exact (Except.ok.inj this).symm
  · rw [h _ b2] at b3
    cases b3

/-- The loop of the functions raises the exception of the first density that cannot be computed. -/
theorem repeatLoop_density_error (src : LanczosSource) (f : LanczosIter → Py (List ℝ × List ℝ)) (its : List LanczosIter)
    (e : PyErr) (he : its.mapM f = .error e) :
    ∀ (c n : Nat) (g : Option (List ℝ)) (avg : List ℝ), (∀ k (hk : k < its.length), src (c + k) = .ok its[k]) →
      (repeatLoop src f c n g avg its.length).1 = .error e := by
  induction its with
  | nil => simp [pure, Except.pure] at he
  | cons it its ih =>
    intro c n g avg h
    have h0 : src c = .ok it := h 0 (by simp)
    simp only [List.length_cons, repeatLoop, h0]
    simp only [List.mapM_cons, bind, Except.bind] at he
    cases hf : f it with
    | error e' =>
      simp only [hf] at he
      cases he
      rfl
    | ok r =>
      simp only [hf] at he
      obtain ⟨g', d'⟩ := r
      simp only
      refine ih ?_ _ _ _ _ fun k hk => ?_
      · cases hm : its.mapM f with
        | error e' => simpa [hm] using he
        | ok l => simp [hm, pure, Except.pure] at he
      · have := h (k + 1) (by simpa using hk)
        rw [show c + 1 + k = c + (k + 1) by omega]
        simpa using this

/-- C91: what an object returns does not depend on its history. A request for `n ≥ 1` repetitions for which the object has,
or can get, `n` runs of `fast_lanczos` ends like the function called with the same operator, the same number of Lanczos
vectors, hyper-parameters and with boundaries that evaluate to those of the object, if the runs that the function makes are
the first `n` runs the object has made. -/
theorem request_eq_call (fast : LanczosWorld Op) (o : SpectrumObject Op) (calls n : Nat) (hn : 0 < n) (args : DensityArgs)
    (hruns : n ≤ (o.request fast calls n args).2.1.iters.length)
    (fast' : LanczosWorld Op) (eigsh : EigshWorld Op) (c : Nat) (boundaries : Boundaries) (tol : ℝ)
    (hb : (o.kind.boundaries (eigsh o.op tol) boundaries).1 = .ok o.boundaries)
    (hfast : ∀ k (hk : k < n), fast' o.op o.ncv (c + k) = .ok ((o.request fast calls n args).2.1.iters[k]'(by omega))) :
    (o.request fast calls n args).1 = (callSpectrum fast' eigsh o.kind o.op o.ncv c n boundaries tol args).1.1 := by
  rw [callSpectrum_eq fast' eigsh o.kind o.op o.ncv c n boundaries tol args o.boundaries hb]
  simp only [request_eq, cachedSpectrum_state] at hruns hfast ⊢
  obtain ⟨new, g1, -, g3⟩ := getLanczosIters_spec (fast o.op o.ncv) ⟨o.iters, calls⟩ n
  simp only at g1 g3
  have hok : (getLanczosIters (fast o.op o.ncv) ⟨o.iters, calls⟩ n).1 = .ok ((o.iters ++ new).take n) := by
    rcases g3 with ⟨a1, -⟩ | ⟨e, -, b2, -⟩
    · exact a1
    · rw [g1] at hruns
      omega
  rw [g1] at hruns
  have hlen : ((o.iters ++ new).take n).length = n := by rw [List.length_take]; omega
  have hk : ∀ k (hk : k < ((o.iters ++ new).take n).length),
      fast' o.op o.ncv (c + k) = .ok ((o.iters ++ new).take n)[k] := by
    intro k hk
    have := hfast k (by omega)
    simp only [g1] at this
    rw [this, List.getElem_take]
  have hfresh := getLanczosIters_fresh (fast' o.op o.ncv) c _ hk
  rw [hlen] at hfresh
  have hres := cachedSpectrum_result _ (fast' o.op o.ncv) (densityOf o.kind o.boundaries args) _ ⟨[], c⟩ n _ hok hfresh
  rw [hres, Int.toNat_natCast]
  rcases hm : ((o.iters ++ new).take n).mapM (densityOf o.kind o.boundaries args) with e | l
  · have h1 := repeatLoop_density_error (fast' o.op o.ncv) _ _ e hm c 0 none (List.replicate args.numPoints 0) hk
    rw [hlen] at h1
    rw [h1]
    unfold cachedSpectrum
    rcases hg : getLanczosIters (fast' o.op o.ncv) ⟨[], c⟩ n with ⟨r, s⟩
    rw [hg] at hfresh
    simp only at hfresh
    subst hfresh
    simp [hm]
  · obtain ⟨m1, m2⟩ := mapM_ok _ _ _ hm
    obtain ⟨r, hr⟩ := repeatLoop_total (fast' o.op o.ncv) (densityOf o.kind o.boundaries args) n c 0 none
      (List.replicate args.numPoints 0) (Or.inl hn) fun k hk' =>
        ⟨_, _, hk k (by omega), m2 k (by omega) (by omega)⟩
    obtain ⟨st', h1, -, -⟩ := cachedSpectrum_eq_repeatLoop (fast' o.op o.ncv) _ args.numPoints
      (densityOf_length o.kind o.boundaries args) (densityOf_grid o.kind o.boundaries args) c n r _ hr
    rw [h1, hr]

/-- C91: a request makes exactly the runs of `fast_lanczos` that are missing, with the operator and the number of Lanczos
vectors of the object, and keeps all runs it has made. Repeating a request, or asking for fewer repetitions or for other
hyper-parameters, makes none. -/
theorem request_runs (fast : LanczosWorld Op) (o : SpectrumObject Op) (calls : Nat) (n : Int) (args : DensityArgs) :
    ∃ new : List LanczosIter, (o.request fast calls n args).2.1 = { o with iters := o.iters ++ new } ∧
      (∀ k (hk : k < new.length), fast o.op o.ncv (calls + k) = .ok new[k]) ∧
      ((∃ e, (o.request fast calls n args).1 = .error e ∧ fast o.op o.ncv (calls + new.length) = .error e ∧
          (o.iters.length + new.length : Int) < n ∧ (o.request fast calls n args).2.2 = calls + new.length + 1) ∨
        new.length = (n - o.iters.length).toNat ∧ (o.request fast calls n args).2.2 = calls + new.length) := by
  simp only [request_eq, cachedSpectrum_state]
  obtain ⟨new, h1, h2, h3⟩ := drawIters_spec (fast o.op o.ncv) (n - o.iters.length).toNat ⟨o.iters, calls⟩
  refine ⟨new, ?_, h2, ?_⟩
  · unfold getLanczosIters
    rcases hd : drawIters (fast o.op o.ncv) (n - o.iters.length).toNat ⟨o.iters, calls⟩ with ⟨r, st'⟩
    rw [hd] at h1
    simp only at h1
    cases r <;> simp only [h1]
  · unfold cachedSpectrum getLanczosIters
    rcases hd : drawIters (fast o.op o.ncv) (n - o.iters.length).toNat ⟨o.iters, calls⟩ with ⟨r, st'⟩
    rw [hd] at h3
    simp only at h3
    rcases h3 with ⟨a, b, c⟩ | ⟨e, a, b, c, f⟩
    · subst a
      refine Or.inr ⟨b, ?_⟩
      simp only
      rw [c, b]
    · subst a
      refine Or.inl ⟨e, ?_, c, by omega, ?_⟩
      · simp only
      · simp only [f]

/-! ## The world -/

theorem repeatLoop_calls (src : LanczosSource) (f : LanczosIter → Py (List ℝ × List ℝ)) (left : Nat) :
    ∀ (c n : Nat) (g : Option (List ℝ)) (avg : List ℝ), c ≤ (repeatLoop src f c n g avg left).2 := by
  induction left with
  | zero =>
    intro c n g avg
    cases g <;> simp [repeatLoop]
  | succ left ih =>
    intro c n g avg
    rw [repeatLoop.eq_def]
    simp only
    cases src c with
    | error e => simp
    | ok it =>
      simp only
      cases f it with
      | error e => simp
      | ok r => exact le_trans (Nat.le_succ c) (ih _ _ _ _)

theorem callSpectrum_calls (fast : LanczosWorld Op) (eigsh : EigshWorld Op) (kind : SpectrumKind) (A : Op) (ncv calls : Nat)
    (n : Int) (boundaries : Boundaries) (tol : ℝ) (args : DensityArgs) :
    calls ≤ (callSpectrum fast eigsh kind A ncv calls n boundaries tol args).1.2 := by
  cases hb : (kind.boundaries (eigsh A tol) boundaries).1 with
  | ok b =>
    rw [callSpectrum_eq fast eigsh kind A ncv calls n boundaries tol args b hb]
    exact repeatLoop_calls _ _ _ _ _ _ _
  | error e =>
    cases kind
    · simp only [SpectrumKind.boundaries] at hb
      simp [callSpectrum, lanczosSpectrum, hb]
    · simp only [SpectrumKind.boundaries] at hb
      simp [callSpectrum, lanczosLogSpectrum, hb]

theorem event_calls (fast : LanczosWorld Op) (eigsh : EigshWorld Op) (w : SpectrumWorld Op) (e : SpectrumEvent Op) :
    w.calls ≤ (e.run fast eigsh w).calls := by
  cases e with
  | create kind A ncv b tol => exact le_rfl
  | call kind A ncv n b tol args => exact callSpectrum_calls fast eigsh kind A ncv w.calls n b tol args
  | request i n args =>
    simp only [SpectrumEvent.run]
    cases w.objects[i]? with
    | none => exact le_rfl
    | some o =>
      simp only
      obtain ⟨new, -, -, h | h⟩ := request_runs fast o w.calls n args
      · obtain ⟨_, -, -, -, h⟩ := h; omega
      · omega

theorem run_append (fast : LanczosWorld Op) (eigsh : EigshWorld Op) (w : SpectrumWorld Op) (p q : List (SpectrumEvent Op)) :
    w.run fast eigsh (p ++ q) = (w.run fast eigsh p).run fast eigsh q := List.foldl_append

/-- C91: an object keeps its operator, number of Lanczos vectors and boundaries for the rest of the program, whatever
happens, and never loses or changes a run. -/
theorem object_stable (fast : LanczosWorld Op) (eigsh : EigshWorld Op) (w : SpectrumWorld Op)
    (program : List (SpectrumEvent Op)) (i : Nat) (o : SpectrumObject Op) (h : w.objects[i]? = some o) :
    ∃ o', (w.run fast eigsh program).objects[i]? = some o' ∧ o'.kind = o.kind ∧ o'.op = o.op ∧ o'.ncv = o.ncv ∧
      o'.boundaries = o.boundaries ∧ o.iters <+: o'.iters := by
  induction program generalizing w o with
  | nil => exact ⟨o, h, rfl, rfl, rfl, rfl, List.prefix_rfl⟩
  | cons e program ih =>
    have hstep : ∃ o', (e.run fast eigsh w).objects[i]? = some o' ∧ o'.kind = o.kind ∧ o'.op = o.op ∧ o'.ncv = o.ncv ∧
        o'.boundaries = o.boundaries ∧ o.iters <+: o'.iters := by
      have hi : i < w.objects.length := (List.getElem?_eq_some_iff.mp h).1
      cases e with
      | call => exact ⟨o, h, rfl, rfl, rfl, rfl, List.prefix_rfl⟩
      | create kind A ncv b tol =>
        refine ⟨o, ?_, rfl, rfl, rfl, rfl, List.prefix_rfl⟩
        simp only [SpectrumEvent.run]
        cases (newSpectrumObject eigsh kind A ncv b tol).1 with
        | error e => exact h
        | ok o' => simp only; rw [List.getElem?_append_left hi, h]
      | request j n args =>
        simp only [SpectrumEvent.run]
        cases hj : w.objects[j]? with
        | none => exact ⟨o, h, rfl, rfl, rfl, rfl, List.prefix_rfl⟩
        | some oj =>
          simp only
          by_cases hij : j = i
          · subst hij
            rw [h] at hj
            cases hj
            obtain ⟨new, h1, -⟩ := request_runs fast o w.calls n args
            refine ⟨{ o with iters := o.iters ++ new }, ?_, rfl, rfl, rfl, rfl, List.prefix_append _ _⟩
            rw [List.getElem?_set_self hi, h1]
          · exact ⟨o, by rw [List.getElem?_set_ne hij, h], rfl, rfl, rfl, rfl, List.prefix_rfl⟩
    obtain ⟨o1, h1, a1, a2, a3, a4, a5⟩ := hstep
    obtain ⟨o2, h2, b1, b2, b3, b4, b5⟩ := ih _ o1 h1
    exact ⟨o2, h2, b1.trans a1, b2.trans a2, b3.trans a3, b4.trans a4, a5.trans b5⟩

/-- `idx i k` is the number of the call to `fast_lanczos` that made run number `k` of object number `i`. -/
structure RunsOwned (fast : LanczosWorld Op) (w : SpectrumWorld Op) (taken : Set Nat) (idx : Nat → Nat → Nat) : Prop where
  made : ∀ i o, w.objects[i]? = some o → ∀ k (hk : k < o.iters.length),
    idx i k < w.calls ∧ idx i k ∉ taken ∧ fast o.op o.ncv (idx i k) = .ok o.iters[k]
  unshared : ∀ i o i' o', w.objects[i]? = some o → w.objects[i']? = some o' → ∀ k k', k < o.iters.length →
    k' < o'.iters.length → idx i k = idx i' k' → i = i' ∧ k = k'

theorem runsOwned_event (fast : LanczosWorld Op) (eigsh : EigshWorld Op) (w : SpectrumWorld Op) (taken : Set Nat)
    (idx : Nat → Nat → Nat) (ht : ∀ t ∈ taken, t < w.calls) (h : RunsOwned fast w taken idx) (e : SpectrumEvent Op) :
    ∃ idx', RunsOwned fast (e.run fast eigsh w) taken idx' := by
  have hcalls := event_calls fast eigsh w e
  cases e with
  | call kind A ncv n b tol args =>
    refine ⟨idx, fun i o ho k hk => ?_, h.unshared⟩
    obtain ⟨a, b, c⟩ := h.made i o ho k hk
    exact ⟨lt_of_lt_of_le a hcalls, b, c⟩
  | create kind A ncv b tol =>
    simp only [SpectrumEvent.run]
    cases hn : (newSpectrumObject eigsh kind A ncv b tol).1 with
    | error e => exact ⟨idx, h.made, h.unshared⟩
    | ok o =>
      have ho : o.iters = [] := by
        simp only [newSpectrumObject] at hn
        split at hn
        · cases hn
        · cases hn; rfl
      have key : ∀ (i : Nat) (oi : SpectrumObject Op), (w.objects ++ [o])[i]? = some oi → 0 < oi.iters.length → w.objects[i]? = some oi := by
        intro i oi hi hpos
        by_cases hlt : i < w.objects.length
        · rwa [List.getElem?_append_left hlt] at hi
        · rw [List.getElem?_append_right (by omega)] at hi
          have : oi ∈ [o] := List.mem_of_getElem? hi
          simp only [List.mem_singleton] at this
          subst this
          simp [ho] at hpos
      refine ⟨idx, fun i oi hi k hk => h.made i oi (key i oi hi (by omega)) k hk, ?_⟩
      intro i oi i' oi' hi hi' k k' hk hk'
      exact h.unshared i oi i' oi' (key i oi hi (by omega)) (key i' oi' hi' (by omega)) k k' hk hk'
  | request j n args =>
    simp only [SpectrumEvent.run] at hcalls ⊢
    cases hj : w.objects[j]? with
    | none => exact ⟨idx, h⟩
    | some o =>
      rw [hj] at hcalls
      simp only at hcalls ⊢
      have hjl : j < w.objects.length := (List.getElem?_eq_some_iff.mp hj).1
      obtain ⟨new, h1, h2, h3⟩ := request_runs fast o w.calls n args
      have hnew : w.calls + new.length ≤ (o.request fast w.calls n args).2.2 := by
        rcases h3 with ⟨_, -, -, -, h⟩ | ⟨-, h⟩ <;> omega
      rw [h1]
      have hold : ∀ i oi, (w.objects.set j { o with iters := o.iters ++ new })[i]? = some oi →
          (i ≠ j ∧ w.objects[i]? = some oi) ∨ (i = j ∧ oi = { o with iters := o.iters ++ new }) := by
        intro i oi hi
        by_cases hij : i = j
        · subst hij
          rw [List.getElem?_set_self hjl] at hi
          exact Or.inr ⟨rfl, (Option.some.inj hi).symm⟩
        · rw [List.getElem?_set_ne (Ne.symm hij)] at hi
          exact Or.inl ⟨hij, hi⟩
      refine ⟨fun i k => if i = j ∧ o.iters.length ≤ k then w.calls + (k - o.iters.length) else idx i k, ?_, ?_⟩
      · intro i oi hi k hk
        simp only
        rcases hold i oi hi with ⟨hij, hio⟩ | ⟨hij, hio⟩
        · rw [if_neg (fun c => hij c.1)]
          obtain ⟨a, b, c⟩ := h.made i oi hio k hk
          exact ⟨lt_of_lt_of_le a hcalls, b, c⟩
        · subst hij hio
          simp only [List.length_append] at hk
          by_cases hkl : o.iters.length ≤ k
          · rw [if_pos ⟨rfl, hkl⟩]
            refine ⟨by omega, fun hm => absurd (ht _ hm) (by omega), ?_⟩
            simp only [List.getElem_append_right hkl]
            exact h2 _ (by omega)
          · rw [if_neg (fun c => hkl c.2)]
            obtain ⟨a, b, c⟩ := h.made i o hj k (by omega)
            refine ⟨lt_of_lt_of_le a hcalls, b, ?_⟩
            simp only [List.getElem_append_left (show k < o.iters.length by omega)]
            exact c
      · -- an index is either an old one, below `w.calls`, or a new one
        have cases_idx : ∀ i oi, (w.objects.set j { o with iters := o.iters ++ new })[i]? = some oi → ∀ k, k < oi.iters.length →
            (i = j ∧ o.iters.length ≤ k) ∨
              (¬(i = j ∧ o.iters.length ≤ k) ∧ ∃ oo, w.objects[i]? = some oo ∧ k < oo.iters.length) := by
          intro i oi hi k hk
          by_cases hc : i = j ∧ o.iters.length ≤ k
          · exact Or.inl hc
          · refine Or.inr ⟨hc, ?_⟩
            rcases hold i oi hi with ⟨-, hi⟩ | ⟨hij, -⟩
            · exact ⟨oi, hi, hk⟩
            · subst hij
              exact ⟨o, hj, by by_contra hcc; exact hc ⟨rfl, by omega⟩⟩
        intro i oi i' oi' hi hi' k k' hk hk' heq
        rcases cases_idx i oi hi k hk with hc | ⟨hc, oo, g1, g2⟩ <;> rcases cases_idx i' oi' hi' k' hk' with hc' | ⟨hc', oo', g1', g2'⟩
        · rw [if_pos hc, if_pos hc'] at heq
          exact ⟨hc.1.trans hc'.1.symm, by omega⟩
        · rw [if_pos hc, if_neg hc'] at heq
          have := (h.made i' oo' g1' k' g2').1
          omega
        · rw [if_neg hc, if_pos hc'] at heq
          have := (h.made i oo g1 k g2).1
          omega
        · rw [if_neg hc, if_neg hc'] at heq
          exact h.unshared i oo i' oo' g1 g1' k k' g2 g2' heq

theorem runsOwned_run (fast : LanczosWorld Op) (eigsh : EigshWorld Op) (program : List (SpectrumEvent Op)) (taken : Set Nat) :
    ∀ (w : SpectrumWorld Op) (idx : Nat → Nat → Nat), (∀ t ∈ taken, t < w.calls) → RunsOwned fast w taken idx →
      ∃ idx', RunsOwned fast (w.run fast eigsh program) taken idx' := by
  induction program with
  | nil => exact fun w idx _ h => ⟨idx, h⟩
  | cons e program ih =>
    intro w idx ht h
    obtain ⟨idx', h'⟩ := runsOwned_event fast eigsh w taken idx ht h e
    exact ih _ idx' (fun t hm => lt_of_lt_of_le (ht t hm) (event_calls fast eigsh w e)) h'

/-- C91: runs of `fast_lanczos` are not shared. In every program, every run that an object uses was made by a call to
`fast_lanczos` with the operator and the number of Lanczos vectors of this object; different runs of one object and runs of
different objects come from different calls, and no object uses a run that was made by a call to one of the functions.
Therefore densities of different objects, and of objects and functions, use different random numbers. -/
theorem runs_unshared (fast : LanczosWorld Op) (eigsh : EigshWorld Op) (before after : List (SpectrumEvent Op))
    (kind : SpectrumKind) (A : Op) (ncv : Nat) (n : Int) (boundaries : Boundaries) (tol : ℝ) (args : DensityArgs) :
    let w := (SpectrumWorld.start Op).run fast eigsh before
    let w' := (SpectrumEvent.call kind A ncv n boundaries tol args).run fast eigsh w
    ∃ idx, RunsOwned fast (w'.run fast eigsh after) (Set.Ico w.calls w'.calls) idx := by
  intro w w'
  obtain ⟨idx, h⟩ := runsOwned_run fast eigsh before ∅ (SpectrumWorld.start Op) (fun _ _ => 0) (by simp)
    ⟨fun i o ho => by simp [SpectrumWorld.start] at ho, fun i o i' o' ho => by simp [SpectrumWorld.start] at ho⟩
  refine runsOwned_run fast eigsh after _ w' idx (fun t ht => ht.2) ⟨fun i o ho k hk => ?_, h.unshared⟩
  obtain ⟨a, -, c⟩ := h.made i o ho k hk
  have hle : w.calls ≤ w'.calls := event_calls fast eigsh w (.call kind A ncv n boundaries tol args)
  exact ⟨lt_of_lt_of_le a hle, fun hm => absurd a (not_lt.mpr hm.1), c⟩

/-! ## The constructor and the eigensolver -/

/-- The event creates an object with these properties. -/
def Creates (eigsh : EigshWorld Op) (e : SpectrumEvent Op) (o : SpectrumObject Op) (boundaries : Boundaries) (tol : ℝ) : Prop :=
  e = .create o.kind o.op o.ncv boundaries tol ∧ (o.kind.boundaries (eigsh o.op tol) boundaries).1 = .ok o.boundaries

theorem object_created_aux (fast : LanczosWorld Op) (eigsh : EigshWorld Op) (program : List (SpectrumEvent Op)) :
    ∀ (w : SpectrumWorld Op) (i : Nat) (o : SpectrumObject Op), (w.run fast eigsh program).objects[i]? = some o →
      i < w.objects.length ∨ ∃ e ∈ program, ∃ boundaries tol, Creates eigsh e o boundaries tol := by
  induction program with
  | nil => exact fun w i o h => Or.inl (List.getElem?_eq_some_iff.mp h).1
  | cons e program ih =>
    intro w i o h
    rcases ih (e.run fast eigsh w) i o h with h1 | ⟨e', h1, h2⟩
    swap
    · exact Or.inr ⟨e', List.mem_cons_of_mem _ h1, h2⟩
    cases e with
    | call => exact Or.inl h1
    | request j n args =>
      refine Or.inl ?_
      simp only [SpectrumEvent.run] at h1
      split at h1
      · exact h1
      · simpa using h1
    | create kind A ncv b tol =>
      cases hn : (newSpectrumObject eigsh kind A ncv b tol).1 with
      | error e =>
        simp only [SpectrumEvent.run, hn] at h1
        exact Or.inl h1
      | ok o1 =>
        by_cases hlt : i < w.objects.length
        · exact Or.inl hlt
        refine Or.inr ⟨_, List.mem_cons_self, b, tol, ?_⟩
        have hi : i = w.objects.length := by
          simp only [SpectrumEvent.run, hn, List.length_append, List.length_singleton] at h1
          omega
        have h0 : ((SpectrumEvent.create kind A ncv b tol).run fast eigsh w).objects[i]? = some o1 := by
          simp only [SpectrumEvent.run, hn, hi]
          simp
        obtain ⟨o', g1, g2, g3, g4, g5, -⟩ := object_stable fast eigsh _ program i o1 h0
        have : o' = o := Option.some.inj (g1.symm.trans h)
        subst this
        simp only [newSpectrumObject] at hn
        split at hn
        · cases hn
        · rename_i b' hb'
          cases hn
          unfold Creates
          rw [g2, g3, g4, g5]
          exact ⟨rfl, hb'⟩

/-- C91: every object was created by a constructor call of the program that did not raise, and has the kind, operator and
number of Lanczos vectors of this call and the boundaries that it evaluated. -/
theorem object_created (fast : LanczosWorld Op) (eigsh : EigshWorld Op) (program : List (SpectrumEvent Op)) (i : Nat)
    (o : SpectrumObject Op) (h : ((SpectrumWorld.start Op).run fast eigsh program).objects[i]? = some o) :
    ∃ e ∈ program, ∃ boundaries tol, Creates eigsh e o boundaries tol := by
  rcases object_created_aux fast eigsh program _ i o h with h | h
  · simp [SpectrumWorld.start] at h
  · exact h

/-- C91: the density that an object returns after any program is the density that the function returns for the arguments of
the constructor. -/
theorem program_request (fast : LanczosWorld Op) (eigsh : EigshWorld Op) (program : List (SpectrumEvent Op)) (i : Nat)
    (o : SpectrumObject Op) (h : ((SpectrumWorld.start Op).run fast eigsh program).objects[i]? = some o) :
    ∃ boundaries tol, SpectrumEvent.create o.kind o.op o.ncv boundaries tol ∈ program ∧
      ∀ (n : Nat) (args : DensityArgs), 0 < n →
        let r := o.request fast ((SpectrumWorld.start Op).run fast eigsh program).calls n args
        ∀ (hruns : n ≤ r.2.1.iters.length) (fast' : LanczosWorld Op) (c : Nat),
          (∀ k (hk : k < n), fast' o.op o.ncv (c + k) = .ok (r.2.1.iters[k]'(by omega))) →
          r.1 = (callSpectrum fast' eigsh o.kind o.op o.ncv c n boundaries tol args).1.1 := by
  obtain ⟨e, he, boundaries, tol, rfl, hb⟩ := object_created fast eigsh program i o h
  refine ⟨boundaries, tol, he, ?_⟩
  intro n args hn r hruns fast' c hfast
  exact request_eq_call fast o _ n hn args hruns fast' eigsh c boundaries tol hb hfast

/-- Whether a boundary is left to the eigensolver. -/
def Boundaries.missing (b : Boundaries) : Prop := ∀ lo hi : ℝ, b ≠ some (some lo, some hi)

theorem boundaries_calls (kind : SpectrumKind) (eigsh : Eigsh) (b : Boundaries) (q : Nat × String)
    (hq : q ∈ (kind.boundaries eigsh b).2) : b.missing := by
  rintro lo hi rfl
  cases kind <;> simp [SpectrumKind.boundaries, approximateBoundaries, approximateBoundariesAbs, eigshIfNone] at hq

theorem solver_calls_aux (fast : LanczosWorld Op) (eigsh : EigshWorld Op) (program : List (SpectrumEvent Op)) :
    ∀ (w : SpectrumWorld Op) (q : Op × ℝ × Nat × String), q ∈ (w.run fast eigsh program).solverCalls →
      q ∈ w.solverCalls ∨ ∃ (kind : SpectrumKind) (ncv : Nat) (boundaries : Boundaries), boundaries.missing ∧
        (SpectrumEvent.create kind q.1 ncv boundaries q.2.1 ∈ program ∨
          ∃ n args, SpectrumEvent.call kind q.1 ncv n boundaries q.2.1 args ∈ program) := by
  induction program with
  | nil => exact fun w q h => Or.inl h
  | cons e program ih =>
    intro w q h
    rcases ih (e.run fast eigsh w) q h with h1 | ⟨kind, ncv, b, hb, h1⟩
    swap
    · exact Or.inr ⟨kind, ncv, b, hb, h1.imp (List.mem_cons_of_mem _) fun ⟨n, args, h⟩ => ⟨n, args, List.mem_cons_of_mem _ h⟩⟩
    cases e with
    | request j n args =>
      refine Or.inl ?_
      simp only [SpectrumEvent.run] at h1
      split at h1 <;> exact h1
    | create kind A ncv b tol =>
      simp only [SpectrumEvent.run, newSpectrumObject, List.mem_append, List.mem_map] at h1
      rcases h1 with h1 | ⟨q', h1, rfl⟩
      · exact Or.inl h1
      · exact Or.inr ⟨kind, ncv, b, boundaries_calls kind _ b q' h1, Or.inl List.mem_cons_self⟩
    | call kind A ncv n b tol args =>
      simp only [SpectrumEvent.run, callSpectrum, List.mem_append, List.mem_map] at h1
      rcases h1 with h1 | ⟨q', h1, rfl⟩
      · exact Or.inl h1
      · exact Or.inr ⟨kind, ncv, b, boundaries_calls kind _ b q' h1, Or.inr ⟨n, args, List.mem_cons_self⟩⟩

/-- C91: the eigensolver is called only for constructors and functions that are not given both boundaries, for their operator
and with their tolerance; never for a request. -/
theorem solver_calls (fast : LanczosWorld Op) (eigsh : EigshWorld Op) (program : List (SpectrumEvent Op))
    (q : Op × ℝ × Nat × String) (h : q ∈ ((SpectrumWorld.start Op).run fast eigsh program).solverCalls) :
    ∃ (kind : SpectrumKind) (ncv : Nat) (boundaries : Boundaries), boundaries.missing ∧
      (SpectrumEvent.create kind q.1 ncv boundaries q.2.1 ∈ program ∨
        ∃ n args, SpectrumEvent.call kind q.1 ncv n boundaries q.2.1 args ∈ program) := by
  rcases solver_calls_aux fast eigsh program _ q h with h | h
  · simp [SpectrumWorld.start] at h
  · exact h

/-! ## Examples -/

/-- Two objects for different operators that are used in turns: five requests, but three runs. The second object draws call
number one. -/
example : let fast : LanczosWorld Bool := fun _ ncv i => .ok ⟨ncv, fun _ => i, fun _ _ => 1⟩
    let eigsh : EigshWorld Bool := fun _ _ _ _ => .error .valueError
    let args : DensityArgs := ⟨3, 2, 0, 0⟩
    let w := (SpectrumWorld.start Bool).run fast eigsh
      [.create .plain true 2 (some (some 0, some 1)) 0, .create .log false 3 (some (some 1, some 2)) 0,
       .create .plain true 2 none 0, .request 0 1 args, .request 1 1 args, .request 0 2 args, .request 0 1 args,
       .request 1 (-1) args]
    w.calls = 3 ∧ w.objects.length = 2 ∧ w.solverCalls = [(true, 0, 2, "BE")] ∧
      w.objects.map (fun o => o.iters.map fun it => it.evals 0) = [[0, 2], [1]] := by
  intro fast eigsh args w
  simp only [w, SpectrumWorld.run, List.foldl_cons, List.foldl_nil, SpectrumEvent.run, SpectrumWorld.start, newSpectrumObject,
    SpectrumKind.boundaries, approximateBoundaries, approximateBoundariesAbs, eigshIfNone, Option.getD_some, eigsh, fast,
    List.nil_append, List.map_nil, List.append_nil, List.cons_append, List.map_cons, List.getElem?_cons_zero,
    List.getElem?_cons_succ, request_eq, cachedSpectrum_state, getLanczosIters, List.set_cons_zero,
    List.set_cons_succ, List.length_nil, List.length_cons]
  norm_num [drawIters, show (-1 : Int).toNat = 0 from rfl, show (-2 : Int).toNat = 0 from rfl]

end Curvlinops
