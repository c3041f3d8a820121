import Verif.Model.GpHeap
import Verif.Props.GpTraining

/-!
# C145 and C146: trainers, models, kernels and likelihoods in any order of calls
-/

namespace Pytspl

open Matrix

variable {lib : NumLib} {sh : Shuffler} {sc : SC ℝ} {stale : StaleCall sc.E} {tol : ℝ}

/-! ## What a change of one model leaves alone -/

/-- `w'` differs from `w` only in model `m`, its kernel and its likelihood -/
private structure Local (m : ℕ) (w w' : GpHeap sc) : Prop where
  trainers : w'.trainers = w.trainers
  klen : w'.kernels.length = w.kernels.length
  nlen : w'.noises.length = w.noises.length
  mlen : w'.models.length = w.models.length
  kern : ∀ k, (∀ r, w.models[m]? = some r → r.kernel ≠ k) → w'.kernels[k]? = w.kernels[k]?
  noise : ∀ l, (∀ r, w.models[m]? = some r → r.lik ≠ l) → w'.noises[l]? = w.noises[l]?
  mods : ∀ j, j ≠ m → w'.models[j]? = w.models[j]?
  self : ∀ r, w.models[m]? = some r → ∃ r', w'.models[m]? = some r' ∧ r'.kernel = r.kernel ∧ r'.lik = r.lik ∧
    r'.xTrain = r.xTrain ∧ r'.yTrain = r.yTrain

private theorem Local.refl (m : ℕ) (w : GpHeap sc) : Local m w w :=
  ⟨rfl, rfl, rfl, rfl, fun _ _ => rfl, fun _ _ => rfl, fun _ _ => rfl, fun r h => ⟨r, h, rfl, rfl, rfl, rfl⟩⟩

private theorem Local.trans {m : ℕ} {w1 w2 w3 : GpHeap sc} (h : Local m w1 w2) (h' : Local m w2 w3) : Local m w1 w3 := by
  have back : ∀ r2, w2.models[m]? = some r2 → ∃ r1, w1.models[m]? = some r1 ∧ r2.kernel = r1.kernel ∧ r2.lik = r1.lik := by
    intro r2 h2
    have hlt : m < w1.models.length := by
      rw [← h.mlen]; exact (List.getElem?_eq_some_iff.1 h2).1
    obtain ⟨r', e1, e2, e3, -, -⟩ := h.self _ (List.getElem?_eq_getElem hlt)
    rw [h2] at e1
    cases e1
    exact ⟨_, List.getElem?_eq_getElem hlt, e2, e3⟩
  refine ⟨h'.trainers.trans h.trainers, h'.klen.trans h.klen, h'.nlen.trans h.nlen, h'.mlen.trans h.mlen, ?_, ?_, ?_, ?_⟩
  · intro k hk
    rw [← h.kern k hk]
    refine h'.kern k fun r2 h2 => ?_
    obtain ⟨r1, e1, e2, -⟩ := back r2 h2
    rw [e2]
    exact hk r1 e1
  · intro k hk
    rw [← h.noise k hk]
    refine h'.noise k fun r2 h2 => ?_
    obtain ⟨r1, e1, -, e2⟩ := back r2 h2
    rw [e2]
    exact hk r1 e1
  · intro j hj
    rw [h'.mods j hj, h.mods j hj]
  · intro r hr
    obtain ⟨r2, a1, a2, a3, a4, a5⟩ := h.self r hr
    obtain ⟨r3, b1, b2, b3, b4, b5⟩ := h'.self r2 a1
    exact ⟨r3, b1, b2.trans a2, b3.trans a3, b4.trans a4, b5.trans a5⟩

private theorem store_local (w : GpHeap sc) (m : ℕ) (o : GpObject sc.E) : Local m w (w.store m o) := by
  unfold GpHeap.store
  cases h : w.models[m]? with
  | none => exact Local.refl m w
  | some r =>
    have hlt : m < w.models.length := (List.getElem?_eq_some_iff.1 h).1
    refine ⟨rfl, by simp, by simp, by simp, ?_, ?_, ?_, ?_⟩
    · intro k hk
      exact List.getElem?_set_ne (hk r h)
    · intro k hk
      exact List.getElem?_set_ne (hk r h)
    · intro j hj
      exact List.getElem?_set_ne hj.symm
    · intro r' hr'
      rw [h] at hr'
      cases hr'
      exact ⟨_, List.getElem?_set_self hlt, rfl, rfl, rfl, rfl⟩

private theorem view_eq {w : GpHeap sc} {m : ℕ} {o : GpObject sc.E} (h : w.view m = some o) :
    ∃ r, w.models[m]? = some r ∧ w.kernels[r.kernel]? = some o.model.kernel ∧ w.noises[r.lik]? = some o.model.noise ∧
      o = ⟨⟨o.model.kernel, r.rawOutputscale, r.meanConst, o.model.noise⟩, r.xTrain, r.yTrain, r.training, r.cache⟩ := by
  unfold GpHeap.view at h
  cases h1 : w.models[m]? with
  | none => rw [h1] at h; cases h
  | some r =>
    simp only [h1] at h
    cases h2 : w.kernels[r.kernel]? with
    | none => simp [h2] at h
    | some k =>
      cases h3 : w.noises[r.lik]? with
      | none => simp [h2, h3] at h
      | some v =>
        simp only [h2, h3, Option.some.injEq] at h
        subst h
        exact ⟨r, rfl, h2, h3, rfl⟩

private theorem view_of {w : GpHeap sc} {m : ℕ} {r : ModelObj sc.E} {k : GpKernel sc.E} {v : ℝ}
    (h1 : w.models[m]? = some r) (h2 : w.kernels[r.kernel]? = some k) (h3 : w.noises[r.lik]? = some v) :
    w.view m = some ⟨⟨k, r.rawOutputscale, r.meanConst, v⟩, r.xTrain, r.yTrain, r.training, r.cache⟩ := by
  unfold GpHeap.view
  simp only [h1, h2, h3]

private theorem view_store {w : GpHeap sc} {m : ℕ} {o o' : GpObject sc.E} (h : w.view m = some o)
    (hx : o'.xTrain = o.xTrain) (hy : o'.yTrain = o.yTrain) : (w.store m o').view m = some o' := by
  obtain ⟨r, h1, h2, h3, h4⟩ := view_eq h
  have hm := (List.getElem?_eq_some_iff.1 h1).1
  have hk := (List.getElem?_eq_some_iff.1 h2).1
  have hn := (List.getElem?_eq_some_iff.1 h3).1
  have e : (w.store m o').view m = some ⟨⟨o'.model.kernel, o'.model.rawOutputscale, o'.model.meanConst, o'.model.noise⟩,
      r.xTrain, r.yTrain, o'.training, o'.cache⟩ := by
    unfold GpHeap.store
    simp only [h1]
    unfold GpHeap.view
    simp only [List.getElem?_set_self hm, List.getElem?_set_self hk, List.getElem?_set_self hn]
  rw [e]
  rw [h4] at hx hy
  simp only at hx hy
  rw [← hx, ← hy]

private theorem Local.view {m : ℕ} {w w' : GpHeap sc} (h : Local m w w') {j : ℕ} (hj : j ≠ m) {r : ModelObj sc.E}
    (hr : w.models[j]? = some r) (hk : ∀ q, w.models[m]? = some q → q.kernel ≠ r.kernel)
    (hl : ∀ q, w.models[m]? = some q → q.lik ≠ r.lik) : w'.view j = w.view j := by
  unfold GpHeap.view
  rw [h.mods j hj, hr]
  simp only
  rw [h.kern _ hk, h.noise _ hl]

private theorem loop_local (opt : Optimiser sc.E) (m l : ℕ) (x : List ℚ) (y : List ℝ) (n : ℕ) :
    ∀ (i : ℕ) (w : GpHeap sc), Local m w (GpHeap.trainLoop stale opt m l x y n i w).2.2 := by
  induction n with
  | zero => intro i w; exact Local.refl m w
  | succ n ih =>
    intro i w
    unfold GpHeap.trainLoop
    split
    · exact Local.refl m w
    · exact Local.refl m w
    · exact (store_local w m _).trans (ih _ _)

/-! ## References stay valid -/

/-- every reference belongs to an object -/
private structure Valid (w : GpHeap sc) : Prop where
  models : ∀ r ∈ w.models, r.kernel < w.kernels.length ∧ r.lik < w.noises.length
  trainers : ∀ tr ∈ w.trainers, ∀ m, tr.model = some m → m < w.models.length

private theorem Local.valid {m : ℕ} {w w' : GpHeap sc} (h : Local m w w') (hv : Valid w) : Valid w' := by
  refine ⟨fun r hr => ?_, fun tr ht j hj => ?_⟩
  · obtain ⟨j, hj, rfl⟩ := List.getElem_of_mem hr
    rw [h.klen, h.nlen]
    have hj' : j < w.models.length := by rw [← h.mlen]; exact hj
    have hw := hv.models _ (List.getElem_mem hj')
    have e := List.getElem?_eq_getElem hj
    by_cases hjm : j = m
    · subst hjm
      obtain ⟨r', e1, e2, e3, -, -⟩ := h.self _ (List.getElem?_eq_getElem hj')
      rw [e] at e1
      cases e1
      rw [e2, e3]
      exact hw
    · rw [h.mods j hjm, List.getElem?_eq_getElem hj'] at e
      rw [← Option.some.inj e]
      exact hw
  · rw [h.trainers] at ht
    rw [h.mlen]
    exact hv.trainers tr ht j hj

private theorem Valid.view {w : GpHeap sc} (hv : Valid w) {m : ℕ} (hm : m < w.models.length) : ∃ o, w.view m = some o := by
  obtain ⟨h1, h2⟩ := hv.models _ (List.getElem_mem hm)
  exact ⟨_, view_of (List.getElem?_eq_getElem hm) (List.getElem?_eq_getElem h1) (List.getElem?_eq_getElem h2)⟩

private theorem exec_valid {w : GpHeap sc} (hv : Valid w) (c : GpCall sc) : Valid (w.exec lib sh stale c).2 := by
  cases c with
  | kernel eig kt dn =>
    simp only [GpHeap.exec]
    split
    · exact ⟨fun r hr => ⟨by have := (hv.models r hr).1; simp; omega, (hv.models r hr).2⟩, hv.trainers⟩
    · exact hv
  | likelihood =>
    exact ⟨fun r hr => ⟨(hv.models r hr).1, by have := (hv.models r hr).2; simp only [GpHeap.exec, List.length_append]; omega⟩,
      hv.trainers⟩
  | model k l mean x y =>
    simp only [GpHeap.exec]
    split
    · rename_i h
      refine ⟨fun r hr => ?_, fun tr ht m hm => ?_⟩
      · rcases List.mem_append.1 hr with hr | hr
        · exact hv.models r hr
        · rw [List.mem_singleton] at hr
          subst hr
          exact h
      · have := hv.trainers tr ht m hm
        simp only [List.length_append]
        omega
    · exact hv
  | trainer y =>
    refine ⟨hv.models, fun tr ht m hm => ?_⟩
    simp only [GpHeap.exec] at ht
    rcases List.mem_append.1 ht with ht | ht
    · exact hv.trainers tr ht m hm
    · rw [List.mem_singleton] at ht
      subst ht
      cases hm
  | split t ratio nz seed =>
    simp only [GpHeap.exec]
    split
    · exact hv
    · rename_i tr htr
      refine ⟨hv.models, fun tr' ht m hm => ?_⟩
      rcases List.mem_or_eq_of_mem_set ht with ht | rfl
      · exact hv.trainers tr' ht m hm
      · exact hv.trainers tr (List.mem_of_getElem? htr) m hm
  | train t m l opt x y iters =>
    simp only [GpHeap.exec]
    split
    · rename_i tr o v h1 h2 h3
      have hl := loop_local (stale := stale) opt m l x y iters 0 w
      have hv' := hl.valid hv
      split
      · rename_i e
        rw [e] at hv'
        exact hv'
      · rename_i ls w' e
        rw [e] at hv' hl
        refine ⟨hv'.models, fun tr' ht m' hm => ?_⟩
        rcases List.mem_or_eq_of_mem_set ht with ht | rfl
        · exact hv'.trainers tr' ht m' hm
        · cases hm
          obtain ⟨r, hr, -⟩ := view_eq h2
          have hlt := (List.getElem?_eq_some_iff.1 hr).1
          rw [← hl.mlen] at hlt
          exact hlt
    · exact hv
  | predict t m l x y =>
    simp only [GpHeap.exec]
    split
    · exact (store_local w m _).valid hv
    · exact hv
  | params t =>
    simp only [GpHeap.exec]
    split <;> exact hv
  | matern t =>
    simp only [GpHeap.exec]
    split <;> exact hv
  | setParam k name v =>
    simp only [GpHeap.exec]
    split
    · exact hv
    · split
      · exact ⟨fun r hr => by simpa using hv.models r hr, hv.trainers⟩
      · exact hv
  | setNoise l v =>
    simp only [GpHeap.exec]
    split
    · split
      · exact hv
      · exact ⟨fun r hr => by simpa using hv.models r hr, hv.trainers⟩
    · exact hv
  | trainMode m =>
    simp only [GpHeap.exec]
    split
    · exact hv
    · exact (store_local w m _).valid hv

private theorem run_valid (cs : List (GpCall sc)) : ∀ {w : GpHeap sc}, Valid w → Valid (w.run lib sh stale cs).2 := by
  induction cs with
  | nil => exact fun h => h
  | cons c cs ih => exact fun h => ih (exec_valid h c)

private theorem valid_empty : Valid (GpHeap.empty sc) := ⟨fun _ h => (by cases h), fun _ h => (by cases h)⟩

/-! ## C145: what a trainer reports -/

/-- the model of the last call of `train` on trainer `t` that returned -/
def lastTrained (t : ℕ) (trace : List (GpCall sc × GpOut sc)) : Option ℕ :=
  trace.foldl (fun acc c => match c with
    | (.train t' m _ _ _ _ _, .losses _ (.ok ())) => if t' = t then some m else acc
    | _ => acc) none

private def noteTrain (t : ℕ) (acc : Option ℕ) (c : GpCall sc × GpOut sc) : Option ℕ :=
  match c with
  | (.train t' m _ _ _ _ _, .losses _ (.ok ())) => if t' = t then some m else acc
  | _ => acc

private def attr (w : GpHeap sc) (t : ℕ) : Option ℕ := w.trainers[t]?.bind fun tr => tr.model

private theorem attr_set (t t' : ℕ) (tr : TrainerObj) (l : List TrainerObj) (h : l[t']? = some tr)
    (a : Option ℕ) (d : _) :
    ((l.set t' { tr with data := d, model := a })[t]?.bind fun tr => tr.model) =
      if t' = t then a else l[t]?.bind fun tr => tr.model := by
  by_cases e : t' = t
  · subst e
    rw [List.getElem?_set_self (List.getElem?_eq_some_iff.1 h).1, if_pos rfl]
    rfl
  · rw [List.getElem?_set_ne e, if_neg e]

private theorem exec_attr (w : GpHeap sc) (c : GpCall sc) (t : ℕ) :
    attr (w.exec lib sh stale c).2 t = noteTrain t (attr w t) (c, (w.exec lib sh stale c).1) := by
  cases c with
  | kernel eig kt dn =>
    simp only [GpHeap.exec]
    split <;> rfl
  | likelihood => rfl
  | model k l mean x y =>
    simp only [GpHeap.exec]
    split <;> rfl
  | trainer y =>
    simp only [GpHeap.exec, attr, noteTrain]
    by_cases h : t < w.trainers.length
    · rw [List.getElem?_append_left h]
    · rw [List.getElem?_append_right (by omega), List.getElem?_eq_none (by omega : w.trainers.length ≤ t)]
      cases h2 : t - w.trainers.length <;> rfl
  | split t' ratio nz seed =>
    simp only [GpHeap.exec, noteTrain]
    split
    · rfl
    · rename_i tr htr
      refine (attr_set t t' tr w.trainers htr tr.model _).trans ?_
      split
      · rename_i e
        subst e
        simp [attr, htr]
      · rfl
  | train t' m l opt x y iters =>
    simp only [GpHeap.exec, noteTrain]
    split
    · rename_i tr o v h1 h2 h3
      have hl := loop_local (stale := stale) opt m l x y iters 0 w
      split
      · rename_i e
        rw [e] at hl
        have ht := hl.trainers
        simp only at ht
        simp only [attr, ht]
      · rename_i ls w' e
        rw [e] at hl
        have h1' : w'.trainers[t']? = some tr := by rw [hl.trainers]; exact h1
        refine (attr_set t t' tr w'.trainers h1' (some m) tr.data).trans ?_
        rw [hl.trainers]
        rfl
    · rfl
  | predict t' m l x y =>
    simp only [GpHeap.exec, noteTrain]
    split
    · simp only [attr, (store_local w m _).trainers]
    · rfl
  | params t' =>
    simp only [GpHeap.exec]
    split <;> rfl
  | matern t' =>
    simp only [GpHeap.exec]
    split <;> rfl
  | setParam k name v =>
    simp only [GpHeap.exec]
    split
    · rfl
    · split <;> rfl
  | setNoise l v =>
    simp only [GpHeap.exec]
    split
    · split <;> rfl
    · rfl
  | trainMode m =>
    simp only [GpHeap.exec, noteTrain]
    split
    · rfl
    · simp only [attr, (store_local w m _).trainers]

private theorem run_attr (cs : List (GpCall sc)) (t : ℕ) : ∀ w : GpHeap sc,
    attr (w.run lib sh stale cs).2 t = (w.run lib sh stale cs).1.foldl (noteTrain t) (attr w t) := by
  induction cs with
  | nil => intro w; rfl
  | cons c cs ih =>
    intro w
    simp only [GpHeap.run, List.foldl_cons]
    rw [ih, exec_attr]

private theorem attr_lastTrained (cs : List (GpCall sc)) (t : ℕ) :
    attr ((GpHeap.empty sc).run lib sh stale cs).2 t = lastTrained t ((GpHeap.empty sc).run lib sh stale cs).1 :=
  run_attr cs t (GpHeap.empty sc)

/-- the dictionary holds the present parameters of the model -/
structure Reports (o : GpObject sc.E) (p : GpParams) : Prop where
  noise : p.noise = o.model.noise
  outputscale : p.outputscale = o.model.outputscale
  mu : o.model.kernel.get "mu" = .ok p.mu
  muDown : o.model.kernel.get "mu_down" = .ok p.muDown
  muUp : o.model.kernel.get "mu_up" = .ok p.muUp
  kappa : o.model.kernel.get "kappa" = .ok p.kappa
  kappaDown : o.model.kernel.get "kappa_down" = .ok p.kappaDown
  kappaUp : o.model.kernel.get "kappa_up" = .ok p.kappaUp
  h : o.model.kernel.get "h" = .ok p.h
  hDown : o.model.kernel.get "h_down" = .ok p.hDown
  hUp : o.model.kernel.get "h_up" = .ok p.hUp

private theorem modelParameters_iff (y : List ℝ) (d : _) (o : GpObject sc.E) (p : GpParams) :
    Trainer.modelParameters (sc := sc) ⟨y, d, some o.model⟩ = .ok p ↔ Reports o p := by
  unfold Trainer.modelParameters
  simp only
  constructor
  · intro h
    cases h1 : o.model.kernel.get "mu" <;> simp only [h1, bind, Except.bind] at h <;> try cases h
    cases h2 : o.model.kernel.get "mu_down" <;> simp only [h2] at h <;> try cases h
    cases h3 : o.model.kernel.get "mu_up" <;> simp only [h3] at h <;> try cases h
    cases h4 : o.model.kernel.get "kappa" <;> simp only [h4] at h <;> try cases h
    cases h5 : o.model.kernel.get "kappa_down" <;> simp only [h5] at h <;> try cases h
    cases h6 : o.model.kernel.get "kappa_up" <;> simp only [h6] at h <;> try cases h
    cases h7 : o.model.kernel.get "h" <;> simp only [h7] at h <;> try cases h
    cases h8 : o.model.kernel.get "h_down" <;> simp only [h8] at h <;> try cases h
    cases h9 : o.model.kernel.get "h_up" <;> simp only [h9] at h <;> try cases h
    exact ⟨rfl, rfl, h1, h2, h3, h4, h5, h6, h7, h8, h9⟩
  · intro r
    simp only [r.mu, r.muDown, r.muUp, r.kappa, r.kappaDown, r.kappaUp, r.h, r.hDown, r.hUp, bind, Except.bind, pure,
      Except.pure]
    rw [← r.noise, ← r.outputscale]

/-- C145: after any program, a trainer on which no `train` has returned has nothing to report. -/
theorem C145_untrained (prog : List (GpCall sc)) (trace : List (GpCall sc × GpOut sc)) (w : GpHeap sc)
    (hr : (GpHeap.empty sc).run lib sh stale prog = (trace, w)) (t : ℕ) (ht : t < w.trainers.length)
    (hl : lastTrained t trace = none) :
    w.exec lib sh stale (.params t) = (.params (.error .attributeError), w) ∧
    w.exec lib sh stale (.matern t) = (.matern (.error .attributeError), w) := by
  have ha := attr_lastTrained (lib := lib) (sh := sh) (stale := stale) prog t
  rw [hr] at ha
  simp only [hl, attr, List.getElem?_eq_getElem ht, Option.bind_some] at ha
  constructor
  · simp only [GpHeap.exec, List.getElem?_eq_getElem ht, GpHeap.trainerVal, ha]
    rfl
  · simp only [GpHeap.exec, List.getElem?_eq_getElem ht, GpHeap.trainerVal, ha]
    rfl

/-- C145: after any program, a trainer reports the present parameters of the model object of its last `train` call that
returned (kernel, output scale and the noise of the model's own likelihood), whatever was called since, and asking for
them changes nothing. -/
theorem C145_parameters (prog : List (GpCall sc)) (trace : List (GpCall sc × GpOut sc)) (w : GpHeap sc)
    (hr : (GpHeap.empty sc).run lib sh stale prog = (trace, w)) (t m : ℕ) (hl : lastTrained t trace = some m) :
    ∃ o r, w.view m = some o ∧ w.exec lib sh stale (.params t) = (.params r, w) ∧ ∀ p, r = .ok p ↔ Reports o p := by
  have ha := attr_lastTrained (lib := lib) (sh := sh) (stale := stale) prog t
  have hv := run_valid (lib := lib) (sh := sh) (stale := stale) prog (valid_empty (sc := sc))
  rw [hr] at ha hv
  simp only [hl, attr] at ha
  cases ht : w.trainers[t]? with
  | none => rw [ht] at ha; cases ha
  | some tr =>
    rw [ht] at ha
    have ha : tr.model = some m := ha
    obtain ⟨o, ho⟩ := hv.view (hv.trainers tr (List.mem_of_getElem? ht) m ha)
    refine ⟨o, (w.trainerVal tr).modelParameters, ho, by simp only [GpHeap.exec, ht], fun p => ?_⟩
    have ho : w.view m = some o := ho
    unfold GpHeap.trainerVal
    simp only [ha, Option.bind_some, ho, Option.map_some]
    exact modelParameters_iff _ _ o p

/-- calls that only read, apart from creating new objects -/
def GpCall.ReadsOnly : GpCall sc → Prop
  | .train _ _ _ _ _ _ _ | .setParam _ _ _ | .setNoise _ _ => False
  | _ => True

private theorem view_mono {w w' : GpHeap sc} (hm : w'.models = w.models) (hk : w.kernels <+: w'.kernels)
    (hn : w.noises <+: w'.noises) {m : ℕ} {o : GpObject sc.E} (h : w.view m = some o) : w'.view m = some o := by
  obtain ⟨r, h1, h2, h3, h4⟩ := view_eq h
  rw [h4]
  refine view_of (by rw [hm]; exact h1) ?_ ?_
  · obtain ⟨u, hu⟩ := hk
    rw [← hu, List.getElem?_append_left (List.getElem?_eq_some_iff.1 h2).1]
    exact h2
  · obtain ⟨u, hu⟩ := hn
    rw [← hu, List.getElem?_append_left (List.getElem?_eq_some_iff.1 h3).1]
    exact h3

private theorem store_same_model {w : GpHeap sc} {m : ℕ} {o o' : GpObject sc.E} (h : w.view m = some o)
    (hm : o'.model = o.model) (hx : o'.xTrain = o.xTrain) (hy : o'.yTrain = o.yTrain) {j : ℕ} {q : GpObject sc.E}
    (hq : w.view j = some q) : (w.store m o').view j = some (if j = m then o' else q) := by
  by_cases hj : j = m
  · subst hj
    rw [if_pos rfl]
    exact view_store h hx hy
  · rw [if_neg hj]
    obtain ⟨r, h1, h2, h3, h4⟩ := view_eq h
    obtain ⟨s, s1, s2, s3, s4⟩ := view_eq hq
    have hk : w.kernels.set r.kernel o'.model.kernel = w.kernels := by
      rw [hm]
      obtain ⟨hlt, e⟩ := List.getElem?_eq_some_iff.1 h2
      rw [← e]
      exact List.set_getElem_self hlt
    have hn : w.noises.set r.lik o'.model.noise = w.noises := by
      rw [hm]
      obtain ⟨hlt, e⟩ := List.getElem?_eq_some_iff.1 h3
      rw [← e]
      exact List.set_getElem_self hlt
    rw [s4]
    unfold GpHeap.store
    simp only [h1, hk, hn]
    exact view_of (by simp only; rw [List.getElem?_set_ne (Ne.symm hj)]; exact s1) s2 s3

private theorem predictWith_object (o : GpObject sc.E) (v : ℝ) (x : List ℚ) (y : List ℝ) :
    (o.predictWith stale v x y).2.model = o.model ∧ (o.predictWith stale v x y).2.xTrain = o.xTrain ∧
    (o.predictWith stale v x y).2.yTrain = o.yTrain ∧ (o.predictWith stale v x y).2.training = false := by
  unfold GpObject.predictWith
  simp only
  split <;> simp [GpObject.touch]

/-- C145: creating objects, splitting, predicting, reading parameters, exporting the kernel and `model.train()` change
no parameter of any model, and no training data; only `predict` and `model.train()` change a mode, that of their own
model. -/
theorem C145_reading (w : GpHeap sc) (c : GpCall sc) (hc : c.ReadsOnly) (j : ℕ) (q : GpObject sc.E)
    (hq : w.view j = some q) :
    ∃ q', (w.exec lib sh stale c).2.view j = some q' ∧ q'.model = q.model ∧ q'.xTrain = q.xTrain ∧
      q'.yTrain = q.yTrain ∧
      (q'.training = q.training ∨ (∃ t l x y, c = .predict t j l x y ∧ q'.training = false) ∨
        c = .trainMode j ∧ q'.training = true) := by
  have keep : ∀ {w' : GpHeap sc}, w'.view j = some q → ∃ q', w'.view j = some q' ∧ q'.model = q.model ∧
      q'.xTrain = q.xTrain ∧ q'.yTrain = q.yTrain ∧ (q'.training = q.training ∨
        (∃ t l x y, c = .predict t j l x y ∧ q'.training = false) ∨ c = .trainMode j ∧ q'.training = true) :=
    fun h => ⟨q, h, rfl, rfl, rfl, .inl rfl⟩
  cases c with
  | kernel eig kt dn =>
    simp only [GpHeap.exec]
    split
    · refine keep ?_
      refine view_mono ?_ ?_ ?_ hq
      · rfl
      · exact List.prefix_append _ _
      · exact List.prefix_refl _
    · exact keep hq
  | likelihood =>
    refine keep ?_
    refine view_mono ?_ ?_ ?_ hq
    · rfl
    · exact List.prefix_refl _
    · exact List.prefix_append _ _
  | model k l mean x y =>
    simp only [GpHeap.exec]
    split
    · refine keep ?_
      obtain ⟨r, h1, h2, h3, h4⟩ := view_eq hq
      rw [h4]
      refine view_of ?_ h2 h3
      rw [List.getElem?_append_left (List.getElem?_eq_some_iff.1 h1).1]
      exact h1
    · exact keep hq
  | trainer y => exact keep hq
  | split t ratio nz seed =>
    simp only [GpHeap.exec]
    split
    · exact keep hq
    · exact keep hq
  | train t m l opt x y iters => exact hc.elim
  | predict t m l x y =>
    simp only [GpHeap.exec]
    split
    · rename_i tr o v h1 h2 h3
      obtain ⟨e1, e2, e3, e4⟩ := predictWith_object (stale := stale) o v x y
      have := store_same_model h2 e1 e2 e3 hq
      by_cases hj : j = m
      · subst hj
        rw [if_pos rfl] at this
        rw [h2] at hq
        cases hq
        exact ⟨_, this, e1, e2, e3, .inr (.inl ⟨t, l, x, y, rfl, e4⟩)⟩
      · rw [if_neg hj] at this
        exact keep this
    · exact keep hq
  | params t =>
    simp only [GpHeap.exec]
    split <;> exact keep hq
  | matern t =>
    simp only [GpHeap.exec]
    split <;> exact keep hq
  | setParam k name v => exact hc.elim
  | setNoise l v => exact hc.elim
  | trainMode m =>
    simp only [GpHeap.exec]
    split
    · exact keep hq
    · rename_i o h2
      have := store_same_model (o' := o.enterTrain) h2 rfl rfl rfl hq
      by_cases hj : j = m
      · subst hj
        rw [if_pos rfl] at this
        rw [h2] at hq
        cases hq
        exact ⟨_, this, rfl, rfl, rfl, .inr (.inr ⟨rfl, rfl⟩)⟩
      · rw [if_neg hj] at this
        exact keep this

/-- C145: the noise added to a prediction is that of the likelihood given to `predict`: with two likelihoods the means
and the covariances of the underlying values agree. -/
theorem C145_predict_noise (w : GpHeap sc) (t m l l' : ℕ) (v v' : ℝ) (hv : w.noises[l]? = some v)
    (hv' : w.noises[l']? = some v') (x : List ℚ) (y : List ℝ) (p : GpPrediction) (q : GpMetrics)
    (h : (w.exec lib sh stale (.predict t m l x y)).1 = .pred (.ok (p, q))) :
    ∃ p' q' K, (w.exec lib sh stale (.predict t m l' x y)).1 = .pred (.ok (p', q')) ∧
      p = ⟨p.n, p.mean, K + v • (1 : Matrix (Fin p.n) (Fin p.n) ℝ)⟩ ∧
      p' = ⟨p.n, p.mean, K + v' • (1 : Matrix (Fin p.n) (Fin p.n) ℝ)⟩ := by
  simp only [GpHeap.exec, hv, hv'] at h ⊢
  cases h1 : w.trainers[t]? with
  | none => simp [h1] at h
  | some tr =>
    cases h2 : w.view m with
    | none => simp [h1, h2] at h
    | some o =>
      simp only [h1, h2, GpOut.pred.injEq] at h ⊢
      unfold GpObject.predictWith at h ⊢
      simp only at h ⊢
      cases h3 : ({ o with training := false } : GpObject sc.E).latent stale x with
      | error e => simp only [h3] at h; cases h
      | ok a =>
        simp only [h3] at h ⊢
        obtain ⟨n, mean, K⟩ := a
        unfold GpPrediction.metrics GpPrediction.addNoise at h ⊢
        simp only at h ⊢
        by_cases hy : y.length = n
        · simp only [hy, ne_eq, not_true_eq_false, if_false] at h ⊢
          cases h4 : torchR2 (fun i : Fin n => y[(i : ℕ)]?.getD 0) mean with
          | error e => simp only [h4, bind, Except.bind] at h; cases h
          | ok r =>
            simp only [h4, bind, Except.bind, pure, Except.pure] at h ⊢
            have h5 := Except.ok.inj h
            rw [Prod.mk.injEq] at h5
            obtain ⟨rfl, rfl⟩ := h5
            exact ⟨_, _, K, rfl, rfl, rfl⟩
        · simp only [ne_eq, hy, not_false_eq_true, if_true] at h
          cases h

/-- C145: training a model with another likelihood than its own never changes the noise of that likelihood. -/
theorem C145_other_likelihood (w : GpHeap sc) (t m l : ℕ) (r : ModelObj sc.E) (hr : w.models[m]? = some r)
    (hl : r.lik ≠ l) (opt : Optimiser sc.E) (x : List ℚ) (y : List ℝ) (iters : ℕ) :
    (w.exec lib sh stale (.train t m l opt x y iters)).2.noises[l]? = w.noises[l]? := by
  have h := (loop_local (stale := stale) opt m l x y iters 0 w).noise l fun r' hr' => by
    rw [hr] at hr'
    cases hr'
    exact hl
  simp only [GpHeap.exec]
  split
  · split
    · rename_i e
      rw [e] at h
      exact h
    · rename_i e
      rw [e] at h
      exact h
  · rfl

/-! ## The model's own likelihood -/

private theorem predictive_latent {E : ℕ} (m : GpModel E) (xt : List ℚ) (yt : List ℝ) (x : List ℚ) :
    m.predictive xt yt x = (m.latent xt yt x).map fun p => p.addNoise m.noise := by
  unfold GpModel.predictive GpModel.latent
  split
  · rfl
  · simp only [bind, Except.bind, pure, Except.pure]
    cases torchRows E xt with
    | error e => rfl
    | ok rt =>
      cases torchRows E x with
      | error e => rfl
      | ok rs =>
        simp only
        cases m.kernel.cov rt rt with
        | error e => rfl
        | ok a =>
          simp only
          cases m.kernel.cov rs rt with
          | error e => rfl
          | ok b =>
            simp only
            cases m.kernel.cov rs rs with
            | error e => rfl
            | ok c => rfl

/-- the behaviour with kept quantities, noise included -/
noncomputable def StaleCall.noisy {E : ℕ} (stale : StaleCall E) : StaleCall E :=
  fun old new xt yt x => (stale old new xt yt x).map fun p => p.addNoise new.noise

private theorem marginal_latent {E : ℕ} (stale : StaleCall E) (o : GpObject E) (x : List ℚ) :
    o.marginal stale.noisy x = (o.latent stale x).map fun p => p.addNoise o.model.noise := by
  unfold GpObject.marginal GpObject.latent
  split
  · split
    · rfl
    · simp only [bind, Except.bind, pure, Except.pure]
      cases torchRows E x with
      | error e => rfl
      | ok r =>
        simp only
        cases o.model.kernel.cov r r with
        | error e => rfl
        | ok K => rfl
  · split
    · exact predictive_latent _ _ _ _
    · rfl

private theorem loss_lossWith {E : ℕ} (stale : StaleCall E) (o : GpObject E) (x : List ℚ) (y : List ℝ) :
    o.lossWith stale o.model.noise x y = o.loss stale.noisy x y := by
  unfold GpObject.lossWith GpObject.loss
  rw [marginal_latent]
  cases o.latent stale x with
  | error e => rfl
  | ok p => rfl

private theorem heap_loss {w : GpHeap sc} {m : ℕ} {o : GpObject sc.E} (h : w.view m = some o) {l : ℕ}
    (hl : w.noises[l]? = some o.model.noise) (x : List ℚ) (y : List ℝ) :
    w.loss stale m l x y = o.loss stale.noisy x y := by
  unfold GpHeap.loss
  rw [h, hl]
  exact loss_lossWith _ _ _ _

private theorem store_own {w : GpHeap sc} {m l : ℕ} {o o' : GpObject sc.E} (h : w.view m = some o) {r : ModelObj sc.E}
    (hr : w.models[m]? = some r) (hl : r.lik = l) : (w.store m o').noises[l]? = some o'.model.noise := by
  obtain ⟨r', h1, h2, h3, h4⟩ := view_eq h
  rw [hr] at h1
  cases h1
  unfold GpHeap.store
  simp only [hr]
  rw [← hl]
  exact List.getElem?_set_self (List.getElem?_eq_some_iff.1 h3).1

private theorem touch_data {E : ℕ} (o : GpObject E) :
    o.touch.xTrain = o.xTrain ∧ o.touch.yTrain = o.yTrain ∧ o.touch.model = o.model := by
  unfold GpObject.touch
  split <;> exact ⟨rfl, rfl, rfl⟩

private theorem loop_own (opt : Optimiser sc.E) (m l : ℕ) (x : List ℚ) (y : List ℝ) (n : ℕ) :
    ∀ (i : ℕ) (w : GpHeap sc) (o : GpObject sc.E) (r : ModelObj sc.E), w.view m = some o → w.models[m]? = some r →
    r.lik = l →
    (GpHeap.trainLoop stale opt m l x y n i w).1 = (GpObject.trainLoop stale.noisy opt x y n i o).1 ∧
    (GpHeap.trainLoop stale opt m l x y n i w).2.1 = (GpObject.trainLoop stale.noisy opt x y n i o).2.1 ∧
    (GpHeap.trainLoop stale opt m l x y n i w).2.2.view m = some (GpObject.trainLoop stale.noisy opt x y n i o).2.2 := by
  induction n with
  | zero => intro i w o r h hr hl; exact ⟨rfl, rfl, h⟩
  | succ n ih =>
    intro i w o r h hr hl
    have hn : w.noises[l]? = some o.model.noise := by
      obtain ⟨r', h1, h2, h3, h4⟩ := view_eq h
      rw [hr] at h1
      cases h1
      rw [← hl]
      exact h3
    have e := heap_loss (stale := stale) h hn x y
    unfold GpHeap.trainLoop GpObject.trainLoop
    rw [e]
    cases hL : o.loss stale.noisy x y with
    | error a => exact ⟨rfl, rfl, h⟩
    | ok v =>
      simp only [h]
      obtain ⟨t1, t2, t3⟩ := touch_data o
      have hstore : ∀ p : GpModel sc.E, (w.store m { o.touch with model := p }).view m = some { o.touch with model := p } :=
        fun p => view_store h t1 t2
      have hf : (fun p => (w.store m { o.touch with model := p }).loss stale m l x y) =
          fun p => GpObject.loss stale.noisy { o.touch with model := p } x y := by
        funext p
        exact heap_loss (hstore p) (store_own h hr hl) x y
      rw [hf]
      obtain ⟨r', s1, -, s2, -⟩ := (store_local w m { o.touch with
        model := opt.step (fun p => GpObject.loss stale.noisy { o.touch with model := p } x y) i o.touch.model }).self r hr
      obtain ⟨i1, i2, i3⟩ := ih (i + 1) _ _ r' (hstore _) s1 (s2.trans hl)
      exact ⟨by rw [i1], i2, i3⟩

/-- C145: with the model's own likelihood, `train` prints and does what the description of a single model says (C141),
whatever else is on the heap. -/
theorem C145_own_likelihood (w : GpHeap sc) (t m l : ℕ) (tr : TrainerObj) (r : ModelObj sc.E) (o : GpObject sc.E)
    (ht : w.trainers[t]? = some tr) (hr : w.models[m]? = some r) (ho : w.view m = some o) (hl : r.lik = l)
    (opt : Optimiser sc.E) (x : List ℚ) (y : List ℝ) (iters : ℕ) (s : Trainer sc) :
    (w.exec lib sh stale (.train t m l opt x y iters)).1 =
      .losses (s.trainOn stale.noisy opt o x y iters).1 (s.trainOn stale.noisy opt o x y iters).2.1 ∧
    (w.exec lib sh stale (.train t m l opt x y iters)).2.view m =
      some (s.trainOn stale.noisy opt o x y iters).2.2.1 := by
  have hn : ∃ v, w.noises[l]? = some v := by
    obtain ⟨r', h1, h2, h3, h4⟩ := view_eq ho
    rw [hr] at h1
    cases h1
    rw [← hl]
    exact ⟨_, h3⟩
  obtain ⟨v, hv⟩ := hn
  obtain ⟨i1, i2, i3⟩ := loop_own (stale := stale) opt m l x y iters 0 w o r ho hr hl
  simp only [GpHeap.exec, ht, ho, hv]
  unfold Trainer.trainOn
  cases hg : GpObject.trainLoop stale.noisy opt x y iters 0 o with
  | mk a b =>
    cases hh : GpHeap.trainLoop stale opt m l x y iters 0 w with
    | mk a' b' =>
      obtain ⟨b, c⟩ := b
      obtain ⟨b', c'⟩ := b'
      rw [hg, hh] at i1 i2 i3
      simp only at i1 i2 i3
      subst i1 i2
      cases b' with
      | error e => exact ⟨rfl, i3⟩
      | ok u =>
        refine ⟨rfl, ?_⟩
        rw [← i3]
        rfl

/-- C145: with the model's own likelihood and no kept quantities, `predict` is what the description of a single model
says (C101, C104 and others). -/
theorem C145_own_predict (w : GpHeap sc) (t m l : ℕ) (tr : TrainerObj) (r : ModelObj sc.E) (o : GpObject sc.E)
    (ht : w.trainers[t]? = some tr) (hr : w.models[m]? = some r) (ho : w.view m = some o) (hl : r.lik = l)
    (hc : o.cache = none) (x : List ℚ) (y : List ℝ) :
    (w.exec lib sh stale (.predict t m l x y)).1 = .pred (o.model.predict o.xTrain o.yTrain x y) := by
  have hn : w.noises[l]? = some o.model.noise := by
    obtain ⟨r', h1, h2, h3, h4⟩ := view_eq ho
    rw [hr] at h1
    cases h1
    rw [← hl]
    exact h3
  simp only [GpHeap.exec, ht, ho, hn]
  congr 1
  unfold GpModel.predict GpObject.predictWith GpObject.latent
  rw [predictive_latent]
  simp only [hc, Option.getD_none, if_true, Bool.false_eq_true, if_false]
  cases o.model.latent o.xTrain o.yTrain x with
  | error e => rfl
  | ok p =>
    simp only [Except.map, bind, Except.bind]
    generalize p.addNoise o.model.noise = a
    unfold GpPrediction.metrics
    by_cases hy : y.length ≠ a.n
    · rw [if_pos hy, if_pos hy]
    · rw [if_neg hy, if_neg hy]
      simp only [bind, Except.bind]
      cases torchR2 (fun i : Fin a.n => y[(i : ℕ)]?.getD 0) a.mean with
      | error e => rfl
      | ok q => rfl

private theorem lossWith_training {E : ℕ} (stale : StaleCall E) (o : GpObject E) (htr : o.training = true) (v : ℝ)
    (x : List ℚ) (y : List ℝ) :
    o.lossWith stale v x y =
      GpObject.loss stale.noisy { o with model := { o.model with noise := v } } x y := by
  rw [← loss_lossWith]
  unfold GpObject.lossWith GpObject.latent
  simp only [htr, if_true]
  rfl

/-- C145: with another likelihood, every pass of `train` prints the marginal loss with the noise of that likelihood, for
the other parameters of the model before that pass. -/
theorem C145_loss (w : GpHeap sc) (t m l : ℕ) (tr : TrainerObj) (r : ModelObj sc.E) (o : GpObject sc.E) (v : ℝ)
    (ht : w.trainers[t]? = some tr) (hr : w.models[m]? = some r) (ho : w.view m = some o) (hl : r.lik ≠ l)
    (hv : w.noises[l]? = some v) (hpos : 0 < v) (hk : o.model.kernel.FromComplex lib tol) (htol : 0 < tol)
    (htr : o.training = true) (rt : List (Fin sc.E)) (hx : o.xTrain = edgeTensor rt) (y : Fin rt.length → ℝ)
    (opt : Optimiser sc.E) (iters : ℕ) :
    ∃ (ms : ℕ → GpModel sc.E) (ls : Fin iters → ℝ),
      (w.exec lib sh stale (.train t m l opt (edgeTensor rt) (List.ofFn y) iters)).1 = .losses (List.ofFn ls) (.ok ()) ∧
      (w.exec lib sh stale (.train t m l opt (edgeTensor rt) (List.ofFn y) iters)).2.view m =
        some { o with model := ms iters } ∧
      ms 0 = o.model ∧ ∀ i : Fin iters, ({ ms i with noise := v } : GpModel sc.E).HasLoss rt y (ls i) := by
  have loop : ∀ (n i : ℕ) (w : GpHeap sc) (o : GpObject sc.E) (r : ModelObj sc.E), w.models[m]? = some r →
      w.view m = some o → r.lik ≠ l → w.noises[l]? = some v → o.model.kernel.FromComplex lib tol → o.training = true →
      o.xTrain = edgeTensor rt → ∃ (ms : ℕ → GpModel sc.E) (ls : Fin n → ℝ) (w' : GpHeap sc),
      GpHeap.trainLoop stale opt m l (edgeTensor rt) (List.ofFn y) n i w = (List.ofFn ls, .ok (), w') ∧
      w'.view m = some { o with model := ms n } ∧ ms 0 = o.model ∧
      ∀ j : Fin n, ({ ms j with noise := v } : GpModel sc.E).HasLoss rt y (ls j) := by
    clear hr ho hl hv hk htr hx ht
    clear r o w
    intro n
    induction n with
    | zero => intro i w o r hr ho hl hv hk htr hx; exact ⟨fun _ => o.model, Fin.elim0, w, by simp [GpHeap.trainLoop], ho, rfl, fun j => j.elim0⟩
    | succ n ih =>
      intro i w o r hr ho hl hv hk htr hx
      obtain ⟨v0, h1, h2⟩ := loss_hasLoss stale.noisy { o with model := { o.model with noise := v } } hk htol hpos rt hx htr y
      have e : w.loss stale m l (edgeTensor rt) (List.ofFn y) = .ok v0 := by
        unfold GpHeap.loss
        rw [ho, hv]
        exact (lossWith_training stale o htr v _ _).trans h1
      have hto : o.touch = o := by unfold GpObject.touch; rw [if_pos htr]
      unfold GpHeap.trainLoop
      rw [e, ho]
      simp only [hto]
      generalize hp : opt.step (fun p => (w.store m { o with model := p }).loss stale m l (edgeTensor rt) (List.ofFn y)) i
        o.model = p
      have hl1 := store_local w m { o with model := p }
      obtain ⟨r', s1, -, s2, -⟩ := hl1.self r hr
      obtain ⟨ms, ls, w', a1, a2, a3, a4⟩ := ih (i + 1) (w.store m { o with model := p }) { o with model := p } r' s1
        (view_store ho rfl rfl) (by rw [s2]; exact hl)
        (by rw [hl1.noise l fun q hq => by rw [hr] at hq; cases hq; exact hl]; exact hv)
        (by unfold GpKernel.FromComplex; rw [← hp]; rw [(opt.kernel _ _ _).2]; exact hk) htr hx
      rw [a1]
      refine ⟨fun j => Nat.casesOn j o.model ms, Fin.cons v0 ls, w', ?_, a2, rfl, fun j => ?_⟩
      · rw [List.ofFn_succ]
        rfl
      · refine Fin.cases ?_ (fun j => ?_) j
        · exact h2
        · exact a4 j
  obtain ⟨ms, ls, w', a1, a2, a3, a4⟩ := loop iters 0 w o r hr ho hl hv hk htr hx
  refine ⟨ms, ls, ?_, ?_, a3, a4⟩
  · simp only [GpHeap.exec, ht, ho, hv, a1]
  · simp only [GpHeap.exec, ht, ho, hv, a1]
    exact a2

/-! ## The noises stay positive -/

private theorem store_noises {w : GpHeap sc} {m : ℕ} {o : GpObject sc.E} (h : ∀ v ∈ w.noises, 0 < v)
    (ho : 0 < o.model.noise) : ∀ v ∈ (w.store m o).noises, 0 < v := by
  unfold GpHeap.store
  split
  · exact h
  · intro v hv
    rcases List.mem_or_eq_of_mem_set hv with hv | rfl
    · exact h v hv
    · exact ho

private theorem view_noise {w : GpHeap sc} {m : ℕ} {o : GpObject sc.E} (hv : w.view m = some o)
    (h : ∀ v ∈ w.noises, 0 < v) : 0 < o.model.noise := by
  obtain ⟨r, -, -, h3, -⟩ := view_eq hv
  exact h _ (List.mem_of_getElem? h3)

private theorem loop_noises (opt : Optimiser sc.E) (m l : ℕ) (x : List ℚ) (y : List ℝ) (n : ℕ) :
    ∀ (i : ℕ) (w : GpHeap sc), (∀ v ∈ w.noises, 0 < v) →
    ∀ v ∈ (GpHeap.trainLoop stale opt m l x y n i w).2.2.noises, 0 < v := by
  induction n with
  | zero => intro i w h; exact h
  | succ n ih =>
    intro i w h
    unfold GpHeap.trainLoop
    split
    · exact h
    · exact h
    · rename_i o h1 h2
      refine ih _ _ (store_noises h ?_)
      refine opt.noise _ _ _ ?_
      rw [(touch_data o).2.2]
      exact view_noise h2 h

/-- C145: in every program the noise of every likelihood is positive at all times, so the noises the other theorems ask
to be positive are. -/
theorem C145_noise_positive (prog : List (GpCall sc)) :
    ∀ v ∈ ((GpHeap.empty sc).run lib sh stale prog).2.noises, 0 < v := by
  have step : ∀ (w : GpHeap sc) (c : GpCall sc), (∀ v ∈ w.noises, 0 < v) →
      ∀ v ∈ (w.exec lib sh stale c).2.noises, 0 < v := by
    intro w c h
    cases c with
    | kernel eig kt dn =>
      simp only [GpHeap.exec]
      split <;> exact h
    | likelihood =>
      intro v hv
      rcases List.mem_append.1 hv with hv | hv
      · exact h v hv
      · rw [List.mem_singleton.1 hv]
        have : 0 < softplus 0 := Real.log_pos (by norm_num)
        unfold minNoise
        linarith
    | model k l mean x y =>
      simp only [GpHeap.exec]
      split <;> exact h
    | trainer y => exact h
    | split t ratio nz seed =>
      simp only [GpHeap.exec]
      split <;> exact h
    | train t m l opt x y iters =>
      have hl := loop_noises (stale := stale) opt m l x y iters 0 w h
      simp only [GpHeap.exec]
      split
      · split
        · rename_i e
          rw [e] at hl
          exact hl
        · rename_i e
          rw [e] at hl
          exact hl
      · exact h
    | predict t m l x y =>
      simp only [GpHeap.exec]
      split
      · rename_i tr o v a b d
        refine store_noises h ?_
        rw [(predictWith_object (stale := stale) o v x y).1]
        exact view_noise b h
      · exact h
    | params t =>
      simp only [GpHeap.exec]
      split <;> exact h
    | matern t =>
      simp only [GpHeap.exec]
      split <;> exact h
    | setParam k name v =>
      simp only [GpHeap.exec]
      split
      · exact h
      · split <;> exact h
    | setNoise l v =>
      simp only [GpHeap.exec]
      split
      · split
        · exact h
        · rename_i hv
          intro u hu
          rcases List.mem_or_eq_of_mem_set hu with hu | rfl
          · exact h u hu
          · have : 0 < minNoise := by norm_num [minNoise]
            linarith [not_lt.1 hv]
      · exact h
    | trainMode m =>
      simp only [GpHeap.exec]
      split
      · exact h
      · rename_i o b
        have hn := view_noise b h
        exact store_noises h (by simpa [GpObject.enterTrain] using hn)
  have all : ∀ (cs : List (GpCall sc)) (w : GpHeap sc), (∀ v ∈ w.noises, 0 < v) →
      ∀ v ∈ (w.run lib sh stale cs).2.noises, 0 < v := by
    intro cs
    induction cs with
    | nil => exact fun w h => h
    | cons c cs ih => exact fun w h => ih _ (step w c h)
  exact all prog _ fun v hv => by cases hv

/-! ## C146: models are not independent -/

/-- the call changes neither model `j` nor its kernel or likelihood, as they are in `w` -/
def GpCall.Avoids (w : GpHeap sc) (j : ℕ) : GpCall sc → Prop
  | .train _ m _ _ _ _ _ => m ≠ j ∧ ∀ r s : ModelObj sc.E, w.models[j]? = some r → w.models[m]? = some s →
      r.kernel ≠ s.kernel ∧ r.lik ≠ s.lik
  | .predict _ m _ _ _ | .trainMode m => m ≠ j
  | .setParam k _ _ => ∀ r : ModelObj sc.E, w.models[j]? = some r → r.kernel ≠ k
  | .setNoise l _ => ∀ r : ModelObj sc.E, w.models[j]? = some r → r.lik ≠ l
  | _ => True

private def Extends (w w' : GpHeap sc) : Prop :=
  ∀ (m : ℕ) (s : ModelObj sc.E), w.models[m]? = some s → ∃ s', w'.models[m]? = some s' ∧ s'.kernel = s.kernel ∧ s'.lik = s.lik

private theorem Extends.refl (w : GpHeap sc) : Extends w w := fun _ s h => ⟨s, h, rfl, rfl⟩

private theorem Extends.trans {w1 w2 w3 : GpHeap sc} (h : Extends w1 w2) (h' : Extends w2 w3) : Extends w1 w3 := by
  intro m s hs
  obtain ⟨s2, a, b, c⟩ := h m s hs
  obtain ⟨s3, a', b', c'⟩ := h' m s2 a
  exact ⟨s3, a', b'.trans b, c'.trans c⟩

private theorem Local.extends {m : ℕ} {w w' : GpHeap sc} (h : Local m w w') : Extends w w' := by
  intro j s hs
  by_cases hj : j = m
  · subst hj
    obtain ⟨s', a, b, c, -, -⟩ := h.self s hs
    exact ⟨s', a, b, c⟩
  · exact ⟨s, by rw [h.mods j hj]; exact hs, rfl, rfl⟩

private theorem exec_extends (w : GpHeap sc) (c : GpCall sc) : Extends w (w.exec lib sh stale c).2 := by
  cases c with
  | kernel eig kt dn =>
    simp only [GpHeap.exec]
    split <;> exact fun m s h => ⟨s, h, rfl, rfl⟩
  | likelihood => exact fun m s h => ⟨s, h, rfl, rfl⟩
  | model k l mean x y =>
    simp only [GpHeap.exec]
    split
    · intro m s h
      refine ⟨s, ?_, rfl, rfl⟩
      rw [List.getElem?_append_left (List.getElem?_eq_some_iff.1 h).1]
      exact h
    · exact Extends.refl w
  | trainer y => exact fun m s h => ⟨s, h, rfl, rfl⟩
  | split t ratio nz seed =>
    simp only [GpHeap.exec]
    split <;> exact fun m s h => ⟨s, h, rfl, rfl⟩
  | train t m l opt x y iters =>
    simp only [GpHeap.exec]
    have hl := (loop_local (stale := stale) opt m l x y iters 0 w).extends
    split
    · split
      · rename_i e
        rw [e] at hl
        exact hl
      · rename_i e
        rw [e] at hl
        exact hl
    · exact Extends.refl w
  | predict t m l x y =>
    simp only [GpHeap.exec]
    split
    · exact (store_local w m _).extends
    · exact Extends.refl w
  | params t =>
    simp only [GpHeap.exec]
    split <;> exact Extends.refl w
  | matern t =>
    simp only [GpHeap.exec]
    split <;> exact Extends.refl w
  | setParam k name v =>
    simp only [GpHeap.exec]
    split
    · exact Extends.refl w
    · split <;> exact fun m s h => ⟨s, h, rfl, rfl⟩
  | setNoise l v =>
    simp only [GpHeap.exec]
    split
    · split <;> exact fun m s h => ⟨s, h, rfl, rfl⟩
    · exact Extends.refl w
  | trainMode m =>
    simp only [GpHeap.exec]
    split
    · exact Extends.refl w
    · exact (store_local w m _).extends

private theorem run_extends (cs : List (GpCall sc)) : ∀ w : GpHeap sc, Extends w (w.run lib sh stale cs).2 := by
  induction cs with
  | nil => exact Extends.refl
  | cons c cs ih => exact fun w => (exec_extends w c).trans (ih _)

private theorem exec_avoids {w w' : GpHeap sc} {c : GpCall sc} {j : ℕ} (hc : c.Avoids w' j) (hx : Extends w w')
    {q : GpObject sc.E} (hq : w.view j = some q) : (w.exec lib sh stale c).2.view j = some q := by
  obtain ⟨r, h1, h2, h3, h4⟩ := view_eq hq
  obtain ⟨r', e1, e2, e3⟩ := hx j r h1
  have sets : ∀ {w1 : GpHeap sc}, w1.models[j]? = some r → w1.kernels[r.kernel]? = w.kernels[r.kernel]? →
      w1.noises[r.lik]? = w.noises[r.lik]? → w1.view j = some q := by
    intro w1 a b d
    rw [h4]
    exact view_of a (b.trans h2) (d.trans h3)
  cases c with
  | train t m l opt x y iters =>
    have hl := loop_local (stale := stale) opt m l x y iters 0 w
    obtain ⟨hj, hrs⟩ := hc
    have key : (GpHeap.trainLoop stale opt m l x y iters 0 w).2.2.view j = some q := by
      refine (hl.view (Ne.symm hj) h1 (fun s hs => ?_) (fun s hs => ?_)).trans hq
      · obtain ⟨s', a, b, d⟩ := hx m s hs
        have := (hrs r' s' e1 a).1
        rw [e2, b] at this
        exact this.symm
      · obtain ⟨s', a, b, d⟩ := hx m s hs
        have := (hrs r' s' e1 a).2
        rw [e3, d] at this
        exact this.symm
    simp only [GpHeap.exec]
    split
    · split
      · rename_i e
        rw [e] at key
        exact key
      · rename_i e
        rw [e] at key
        exact key
    · exact hq
  | setParam k name v =>
    have hk := hc r' e1
    rw [e2] at hk
    simp only [GpHeap.exec]
    split
    · exact hq
    · split
      · exact sets h1 (List.getElem?_set_ne hk.symm) rfl
      · exact hq
  | setNoise l v =>
    have hk := hc r' e1
    rw [e3] at hk
    simp only [GpHeap.exec]
    split
    · split
      · exact hq
      · exact sets h1 rfl (List.getElem?_set_ne hk.symm)
    · exact hq
  | predict t m l x y =>
    simp only [GpHeap.exec]
    split
    · rename_i tr o v a b d
      obtain ⟨f1, f2, f3, -⟩ := predictWith_object (stale := stale) o v x y
      rw [store_same_model b f1 f2 f3 hq, if_neg (Ne.symm hc)]
    · exact hq
  | trainMode m =>
    simp only [GpHeap.exec]
    split
    · exact hq
    · rename_i o b
      rw [store_same_model (o' := o.enterTrain) b rfl rfl rfl hq, if_neg (Ne.symm hc)]
  | kernel eig kt dn =>
    simp only [GpHeap.exec]
    split
    · exact sets h1 (List.getElem?_append_left (List.getElem?_eq_some_iff.1 h2).1) rfl
    · exact hq
  | likelihood => exact sets h1 rfl (List.getElem?_append_left (List.getElem?_eq_some_iff.1 h3).1)
  | model k l mean x y =>
    simp only [GpHeap.exec]
    split
    · refine sets ?_ rfl rfl
      rw [List.getElem?_append_left (List.getElem?_eq_some_iff.1 h1).1]
      exact h1
    · exact hq
  | trainer y => exact hq
  | split t ratio nz seed =>
    simp only [GpHeap.exec]
    split <;> exact hq
  | params t =>
    simp only [GpHeap.exec]
    split <;> exact hq
  | matern t =>
    simp only [GpHeap.exec]
    split <;> exact hq

/-- C146: a program none of whose calls changes model `j`, its kernel or its likelihood leaves the model as it was.

Partial: training another model with the same kernel changes it, see `C146_counterexample`. -/
theorem C146_frame_partial (w : GpHeap sc) (prog : List (GpCall sc)) (j : ℕ) (q : GpObject sc.E)
    (hq : w.view j = some q) (h : ∀ c ∈ prog, c.Avoids (w.run lib sh stale prog).2 j) :
    (w.run lib sh stale prog).2.view j = some q := by
  induction prog generalizing w with
  | nil => exact hq
  | cons c cs ih =>
    refine ih _ (exec_avoids (h c (by simp)) ?_ hq) fun c' hc' => h c' (by simp [hc'])
    exact run_extends (c :: cs) w

private theorem exec_train_frame (w : GpHeap sc) (t m l : ℕ) (opt : Optimiser sc.E) (x : List ℚ) (y : List ℝ) (n : ℕ) :
    (∀ j, j ≠ m → (w.exec lib sh stale (.train t m l opt x y n)).2.models[j]? = w.models[j]?) ∧
    (∀ j, (∀ r, w.models[m]? = some r → r.lik ≠ j) →
      (w.exec lib sh stale (.train t m l opt x y n)).2.noises[j]? = w.noises[j]?) ∧
    ∀ j, j ≠ t → (w.exec lib sh stale (.train t m l opt x y n)).2.trainers[j]? = w.trainers[j]? := by
  have hl := loop_local (stale := stale) opt m l x y n 0 w
  simp only [GpHeap.exec]
  split
  · split
    · rename_i e
      rw [e] at hl
      exact ⟨hl.mods, hl.noise, fun j _ => by rw [← hl.trainers]⟩
    · rename_i e
      rw [e] at hl
      have ht := hl.trainers
      simp only at ht
      exact ⟨hl.mods, hl.noise, fun j hj => by rw [← ht]; exact List.getElem?_set_ne (Ne.symm hj)⟩
  · exact ⟨fun _ _ => rfl, fun _ _ => rfl, fun _ _ => rfl⟩

/-- C146 is false without this condition: two models with likelihoods of their own share a kernel, and training the first
(with an optimiser that increases every kernel parameter) changes what the trainer of the second reports. -/
theorem C146_counterexample : ∃ (lib : NumLib) (eig : GpEigenpairs twoTri.E) (opt : Optimiser twoTri.E),
    ∀ (sh : Shuffler) (stale : StaleCall twoTri.E), ∃ (w w' : GpHeap twoTri) (ls : List ℝ) (p p' : GpParams),
    ((GpHeap.empty twoTri).run lib sh stale [.kernel eig "matern" "forex", .likelihood, .likelihood,
      .model 0 0 none (edgeTensor [(0 : Fin 6)]) [1], .model 0 1 none (edgeTensor [(0 : Fin 6)]) [1], .trainer [1],
      .trainer [1], .train 1 1 1 opt (edgeTensor [(0 : Fin 6)]) [1] 0]).2 = w ∧
    w.exec lib sh stale (.train 0 0 0 opt (edgeTensor [(0 : Fin 6)]) [1] 1) = (.losses ls (.ok ()), w') ∧
    w.exec lib sh stale (.params 1) = (.params (.ok p), w) ∧
    w'.exec lib sh stale (.params 1) = (.params (.ok p'), w') ∧ p.mu ≠ p'.mu := by
  obtain ⟨lib⟩ := NumLib.exists
  obtain ⟨k, -, hk⟩ := GpKernel.FromComplex.exists lib twoTri (by decide) (1 / 1000) .matern
  have htol : (0 : ℝ) < 1 / 1000 := by norm_num
  obtain ⟨opt, hopt⟩ : ∃ opt : Optimiser twoTri.E, opt.step = fun _ _ m =>
      ⟨⟨m.kernel.type, m.kernel.eig, fun n => m.kernel.raw n + 1⟩, m.rawOutputscale, m.meanConst, m.noise⟩ :=
    ⟨⟨fun _ _ m => ⟨⟨m.kernel.type, m.kernel.eig, fun n => m.kernel.raw n + 1⟩, m.rawOutputscale, m.meanConst, m.noise⟩,
      fun _ _ _ => ⟨rfl, rfl⟩, fun _ _ _ h => h, fun _ _ _ h => h⟩, rfl⟩
  refine ⟨lib, k.eig, opt, fun sh stale => ?_⟩
  obtain ⟨w, hw⟩ : ∃ w : GpHeap twoTri, w = ⟨[GpKernel.create .matern k.eig], [softplus 0 + minNoise, softplus 0 + minNoise],
    [⟨0, 0, 0, some 0, edgeTensor [(0 : Fin 6)], [1], true, none⟩,
      ⟨0, 1, 0, some 0, edgeTensor [(0 : Fin 6)], [1], true, none⟩], [⟨[1], none, none⟩, ⟨[1], none, some 1⟩]⟩ := ⟨_, rfl⟩
  have hser : serialize k.eig "matern" "forex" = .ok (GpKernel.create .matern k.eig) := rfl
  have hpos : 0 < softplus 0 + minNoise := by
    have : 0 < softplus 0 := Real.log_pos (by norm_num)
    unfold minNoise
    linarith
  obtain ⟨o, ho⟩ : ∃ o : GpObject twoTri.E, o = ⟨⟨GpKernel.create .matern k.eig, 0, some 0, softplus 0 + minNoise⟩,
    edgeTensor [(0 : Fin 6)], [1], true, none⟩ := ⟨_, rfl⟩
  have hv0 : w.view 0 = some o := by rw [hw, ho]; rfl
  obtain ⟨i1, i2⟩ := C145_own_likelihood (lib := lib) (sh := sh) (stale := stale) w 0 0 0 ⟨[1], none, none⟩
    ⟨0, 0, 0, some 0, edgeTensor [(0 : Fin 6)], [1], true, none⟩ o (by rw [hw]; rfl) (by rw [hw]; rfl) hv0 rfl opt
    (edgeTensor [(0 : Fin 6)]) [1] 1 ⟨[1], none, none⟩
  obtain ⟨L, ms, ls, a1, a2, a3, -⟩ := C141_loss_partial (lib := lib) (tol := 1 / 1000) ⟨[1], none, none⟩ stale.noisy opt o
    (by rw [ho]; exact hk) htol (by rw [ho]; exact hpos) (by rw [ho]) [(0 : Fin 6)] (by rw [ho]; rfl) (fun _ => 1) 1
  replace a1 : Trainer.trainOn ⟨[1], none, none⟩ stale.noisy opt o (edgeTensor [(0 : Fin 6)]) [1] 1 = _ := a1
  rw [a1] at i1 i2
  obtain ⟨w', hw'⟩ : ∃ w', w' = (w.exec lib sh stale (.train 0 0 0 opt (edgeTensor [(0 : Fin 6)]) [1] 1)).2 := ⟨_, rfl⟩
  rw [← hw'] at i2
  have hex : w.exec lib sh stale (.train 0 0 0 opt (edgeTensor [(0 : Fin 6)]) [1] 1) = (.losses (List.ofFn ls) (.ok ()), w') :=
    Prod.ext i1 hw'.symm
  obtain ⟨f1, f2, f3⟩ := exec_train_frame (lib := lib) (sh := sh) (stale := stale) w 0 0 0 opt (edgeTensor [(0 : Fin 6)]) [1] 1
  rw [← hw'] at f1 f2 f3
  have g1 := f1 1 (by decide)
  have g2 := f2 1 (fun r hr => by rw [hw] at hr; cases hr; decide)
  have g3 := f3 1 (by decide)
  have hms : ms 1 = ⟨⟨.matern, k.eig, fun _ => 0 + 1⟩, 0, some 0, softplus 0 + minNoise⟩ := by
    rw [a3 0, a2, hopt, ho]
    rfl
  obtain ⟨r', b1, b2, b3, b4⟩ := view_eq i2
  have b5 : w'.kernels[0]? = some ⟨.matern, k.eig, fun _ => 0 + 1⟩ := by
    obtain ⟨s', c1, c2, -⟩ := exec_extends (lib := lib) (sh := sh) (stale := stale) w
      (.train 0 0 0 opt (edgeTensor [(0 : Fin 6)]) [1] 1) 0
      ⟨0, 0, 0, some 0, edgeTensor [(0 : Fin 6)], [1], true, none⟩ (by rw [hw]; rfl)
    rw [← hw', b1] at c1
    cases c1
    rw [c2] at b2
    rw [b2]
    change some (ms 1).kernel = _
    rw [hms]
  have hv1 : w.view 1 = some o := by rw [hw, ho]; rfl
  have hv1' := view_of (w := w') (m := 1) (r := ⟨0, 1, 0, some 0, edgeTensor [(0 : Fin 6)], [1], true, none⟩)
    (g1.trans (by rw [hw]; rfl)) b5 (g2.trans (show w.noises[1]? = some (softplus 0 + minNoise) by rw [hw]; rfl))
  have ht1 : w.trainers[1]? = some ⟨[1], none, some 1⟩ := by rw [hw]; rfl
  obtain ⟨p, q1, q2, -⟩ := (C80_after_training (lib := lib) (w.trainerVal ⟨[1], none, some 1⟩) o.model
    (by simp [GpHeap.trainerVal, hv1])).1 (.inl (by rw [ho]; rfl))
  obtain ⟨p', q1', q2', -⟩ := (C80_after_training (lib := lib) (w'.trainerVal ⟨[1], none, some 1⟩)
    ⟨⟨.matern, k.eig, fun _ => 0 + 1⟩, 0, some 0, softplus 0 + minNoise⟩
    (by simp only [GpHeap.trainerVal, Option.bind_some, hv1', Option.map_some])).1 (.inl rfl)
  refine ⟨w, w', List.ofFn ls, p, p', ?_, hex, ?_, ?_, ?_⟩
  · rw [hw]
    simp only [GpHeap.run, GpHeap.exec, hser, GpHeap.empty]
    rfl
  · simp only [GpHeap.exec, ht1, q1]
  · simp only [GpHeap.exec, g3.trans ht1, q1']
  · rw [ho] at q2
    have hp : p.mu = softplus 0 := (Except.ok.inj q2).symm
    have hp' : p'.mu = softplus (0 + 1) := (Except.ok.inj q2').symm
    rw [hp, hp']
    refine ne_of_lt (Real.log_lt_log (by positivity) ?_)
    have := Real.exp_lt_exp.2 (show (0 : ℝ) < 0 + 1 by norm_num)
    linarith

/-- the hypotheses of `C145_parameters` and `C145_untrained`: the program of `C146_counterexample` trains trainer 1 on
model 1 and never trains trainer 0 -/
example (stale : StaleCall twoTri.E) (eig : GpEigenpairs twoTri.E) (opt : Optimiser twoTri.E) (x : List ℚ) (y : List ℝ) :
    let prog : List (GpCall twoTri) := [.kernel eig "matern" "forex", .likelihood, .likelihood, .model 0 0 none x y,
      .model 0 1 none x y, .trainer y, .trainer y, .train 1 1 1 opt x y 0]
    lastTrained 0 ((GpHeap.empty twoTri).run lib sh stale prog).1 = none ∧
    lastTrained 1 ((GpHeap.empty twoTri).run lib sh stale prog).1 = some 1 ∧
    ((GpHeap.empty twoTri).run lib sh stale prog).2.trainers.length = 2 := by
  have hser : serialize eig "matern" "forex" = .ok (GpKernel.create .matern eig) := rfl
  simp only [GpHeap.run, GpHeap.exec, hser, GpHeap.empty]
  exact ⟨rfl, rfl, rfl⟩

/-- the hypotheses of `C145_loss`, `C145_other_likelihood`, `C145_own_likelihood` and `C145_own_predict`: one model with
likelihood 0, and a second likelihood -/
example : ∃ (lib : NumLib) (w : GpHeap twoTri) (tr : TrainerObj) (r : ModelObj twoTri.E) (o : GpObject twoTri.E) (v : ℝ),
    w.trainers[0]? = some tr ∧ w.models[0]? = some r ∧ w.view 0 = some o ∧ r.lik = 0 ∧ r.lik ≠ 1 ∧
    w.noises[1]? = some v ∧ 0 < v ∧ o.model.kernel.FromComplex lib (1 / 1000) ∧ o.training = true ∧
    o.xTrain = edgeTensor [(0 : Fin 6), 1, 3] ∧ o.cache = none := by
  obtain ⟨lib⟩ := NumLib.exists
  obtain ⟨k, -, hk⟩ := GpKernel.FromComplex.exists lib twoTri (by decide) (1 / 1000) .matern
  exact ⟨lib, ⟨[k], [1, 2], [⟨0, 0, 0, none, edgeTensor [(0 : Fin 6), 1, 3], [1, 2, 3], true, none⟩], [⟨[1], none, none⟩]⟩,
    _, _, _, 2, rfl, rfl, rfl, rfl, by simp, rfl, by norm_num, hk, rfl, rfl, rfl⟩

/-- the hypotheses of `C146_frame_partial`: two models with kernels and likelihoods of their own; a program that sets
parameters of the first, trains it and predicts with it leaves the second alone -/
example (k : GpKernel twoTri.E) (stale : StaleCall twoTri.E) (opt : Optimiser twoTri.E) (x : List ℚ) (y : List ℝ) :
    let w : GpHeap twoTri := ⟨[k, k], [1, 2], [⟨0, 0, 0, none, x, y, true, none⟩, ⟨1, 1, 0, none, x, y, true, none⟩],
      [⟨y, none, none⟩]⟩
    let prog : List (GpCall twoTri) := [.setParam 0 "mu" 3, .setNoise 0 5, .train 0 0 1 opt x y 10, .predict 0 0 1 x y]
    (∃ q, w.view 1 = some q) ∧ ∀ c ∈ prog, c.Avoids (w.run lib sh stale prog).2 1 := by
  intro w prog
  refine ⟨⟨_, rfl⟩, ?_⟩
  obtain ⟨r0, a1, a2, a3⟩ := run_extends (lib := lib) (sh := sh) (stale := stale) prog w 0 _ rfl
  obtain ⟨r1, b1, b2, b3⟩ := run_extends (lib := lib) (sh := sh) (stale := stale) prog w 1 _ rfl
  generalize (w.run lib sh stale prog).2 = w' at *
  intro c hc
  simp only [prog, List.mem_cons, List.not_mem_nil, or_false] at hc
  rcases hc with rfl | rfl | rfl | rfl
  · intro r hr
    rw [b1] at hr
    cases hr
    simp [b2]
  · intro r hr
    rw [b1] at hr
    cases hr
    simp [b3]
  · refine ⟨by decide, fun r s hr hs => ?_⟩
    rw [b1] at hr
    rw [a1] at hs
    cases hr
    cases hs
    simp [a2, a3, b2, b3]
  · exact (by decide : (0 : ℕ) ≠ 1)

end Pytspl
