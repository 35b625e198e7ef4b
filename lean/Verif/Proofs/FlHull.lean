import Verif.Spec.FlHull
import Verif.Props.Rounded
import Verif.Proofs.FlExample
import Verif.Proofs.Hull

/-! Noise-free `CBO` in floating point arithmetic. Helper lemmas. -/

set_option linter.unusedSectionVars false

namespace Verif

variable {φ : FloatFmt} {ι : Type}

theorem Fl.unit_eighth (hp : 3 ≤ φ.p) : unit φ ≤ 1 / 8 := by
  have : (2 : ℝ) ^ (-(φ.p : ℤ)) ≤ 2 ^ (-3 : ℤ) := zpow_le_zpow_right₀ (by norm_num) (by omega)
  calc unit φ ≤ _ := this
    _ = 1 / 8 := by norm_num

/-- One step of one coordinate. -/
theorem move_box (hp : 3 ≤ φ.p) {x c k : Fl φ} {lo hi B γ : ℝ} (hlo : |lo| ≤ B) (hhi : |hi| ≤ B) (γ0 : 0 ≤ γ) (γ1 : γ ≤ 1) (hx : lo ≤ x.val ∧ x.val ≤ hi)
    (hc : lo - γ * B ≤ c.val ∧ c.val ≤ hi + γ * B) (hk : -1 ≤ k.val ∧ k.val ≤ 0) :
    lo - (γ + 10 * Fl.unit φ) * B ≤ (x + k * (x - c)).val ∧ (x + k * (x - c)).val ≤ hi + (γ + 10 * Fl.unit φ) * B := by
  have u0 := Fl.unit_pos (φ := φ)
  have u8 := Fl.unit_eighth hp
  set u := Fl.unit φ with hu
  have B0 : 0 ≤ B := (abs_nonneg _).trans hlo
  have γB : 0 ≤ γ * B := mul_nonneg γ0 B0
  have γB1 : γ * B ≤ B := by nlinarith
  rw [abs_le] at hlo hhi
  set d := x - c with hd
  have e1 : |d.val - (x.val - c.val)| ≤ u * |x.val - c.val| := φ.near.err φ.pos _
  have e2 : |(k * d).val - k.val * d.val| ≤ u * |k.val * d.val| := φ.near.err φ.pos _
  have e3 : |(x + k * d).val - (x.val + (k * d).val)| ≤ u * |x.val + (k * d).val| := φ.near.err φ.pos _
  have a1 : |x.val - c.val| ≤ 3 * B := by rw [abs_le]; constructor <;> linarith [hx.1, hx.2, hc.1, hc.2, hlo.1, hlo.2, hhi.1, hhi.2]
  have uB : 0 ≤ u * B := by positivity
  have uB8 : u * B ≤ B / 8 := by nlinarith
  have b1 : |d.val - (x.val - c.val)| ≤ 3 * (u * B) := e1.trans (by nlinarith)
  have ak : |k.val| ≤ 1 := by rw [abs_le]; constructor <;> linarith [hk.1, hk.2]
  have a2 : |d.val| ≤ 27 / 8 * B := by
    have := abs_add_le (d.val - (x.val - c.val)) (x.val - c.val)
    rw [sub_add_cancel] at this
    linarith
  have a3 : |k.val * d.val| ≤ 27 / 8 * B := by
    rw [abs_mul]
    calc |k.val| * |d.val| ≤ 1 * |d.val| := mul_le_mul_of_nonneg_right ak (abs_nonneg _)
      _ ≤ _ := by linarith
  have b2 : |(k * d).val - k.val * d.val| ≤ 27 / 8 * (u * B) := e2.trans (by nlinarith)
  have b3 : |k.val * (d.val - (x.val - c.val))| ≤ 3 * (u * B) := by
    rw [abs_mul]
    calc |k.val| * _ ≤ 1 * |d.val - (x.val - c.val)| := mul_le_mul_of_nonneg_right ak (abs_nonneg _)
      _ ≤ _ := by linarith
  set y := x.val + (k * d).val with hy
  have b4 : |y - (x.val + k.val * (x.val - c.val))| ≤ 51 / 8 * (u * B) := by
    have : y - (x.val + k.val * (x.val - c.val)) = ((k * d).val - k.val * d.val) + k.val * (d.val - (x.val - c.val)) := by rw [hy]; ring
    rw [this]
    exact (abs_add_le _ _).trans (by linarith)
  have l1 : lo - γ * B ≤ x.val + k.val * (x.val - c.val) := by nlinarith [hx.1, hc.1, hk.1, hk.2]
  have l2 : x.val + k.val * (x.val - c.val) ≤ hi + γ * B := by nlinarith [hx.2, hc.2, hk.1, hk.2]
  have b4' := abs_le.1 b4
  have a4 : |y| ≤ 3 * B := by rw [abs_le]; constructor <;> linarith [hlo.1, hhi.2, b4'.1, b4'.2]
  have b5 : |(x + k * d).val - y| ≤ 3 * (u * B) := e3.trans (by nlinarith)
  have b5' := abs_le.1 b5
  have : (γ + 10 * u) * B = γ * B + 10 * (u * B) := by ring
  rw [this]
  constructor <;> linarith [b4'.1, b4'.2, b5'.1, b5'.2]

theorem FlNoiseFree.factor {sigma lamda dt : Fl φ} (h : FlNoiseFree sigma lamda dt) : -1 ≤ (-lamda * dt).val ∧ (-lamda * dt).val ≤ 0 := by
  have e : (-1 : Fl φ).val = -1 := by rw [Fl.val_neg, Fl.val_one]
  rw [Fl.val_mul, Fl.val_neg]
  constructor
  · rw [← e, ← Fl.rd_val, e]
    exact φ.near.mono (by linarith [h.2.2])
  · rw [← φ.near.zero]
    exact φ.near.mono (by linarith [h.2.1])

/-- One step of run `m`. -/
theorem box_step (hp : 3 ≤ φ.p) {env : Env (Fl φ) (ι → Fl φ)} (hcorr : env.corr = .none) (hno : NoiseShape env) (hperm : PermOK env) {g : List (Fl φ × Flt (Fl φ) × (ι → Fl φ)) → ι → Fl φ}
    (hg : env.cons = .mean g) {p : (ι → Fl φ) → ι → Fl φ} (hpm : PostMap env p) {n : ℕ} {E : Fl φ → Flt (Fl φ) → Prop} {γ : ℝ} (hR : HullRule g n E γ) (γ0 : 0 ≤ γ) (γ1 : γ ≤ 1)
    {s s' : St (Fl φ) (ι → Fl φ)} (hw : WF s) (hb : 1 ≤ s.batchSize) (hbn : s.batchSize ≤ n) (hn : FlNoiseFree s.sigma s.lamda s.dt) {m : ℕ} (hE : ∀ v, E (s.alpha m) (env.f v))
    {lo hi : ι → ℝ} {B δ : ℝ} (hlo : ∀ i, |lo i| ≤ B) (hhi : ∀ i, |hi i| ≤ B) (δ0 : 0 ≤ δ) (hp' : ∀ ε, 0 ≤ ε → ∀ v, FlBox lo hi ε v → FlBox lo hi ε (p v))
    (hx : ∀ k < s.N, FlBox lo hi δ (s.x.get m k)) (h : step env (cboInner env) s = .ok s') :
    ∀ k < s.N, FlBox lo hi (δ + (γ + 10 * Fl.unit φ) * (B + δ)) (s'.x.get m k) := by
  intro k hk
  have u0 := Fl.unit_pos (φ := φ)
  have fr := step_frame (cboInner_frame env) h
  have hl : ∀ i, |lo i - δ| ≤ B + δ := fun i => by
    have h1 := abs_le.1 (hlo i)
    rw [abs_le]; constructor <;> linarith [h1.1, h1.2]
  have hh : ∀ i, |hi i + δ| ≤ B + δ := fun i => by
    have h1 := abs_le.1 (hhi i)
    rw [abs_le]; constructor <;> linarith [h1.1, h1.2]
  have weak : ∀ v : ι → Fl φ, FlBox lo hi δ v → FlBox lo hi (δ + (γ + 10 * Fl.unit φ) * (B + δ)) v := fun v hv i => by
    have : 0 ≤ (γ + 10 * Fl.unit φ) * (B + δ) := mul_nonneg (by positivity) ((abs_nonneg _).trans (hl i))
    constructor <;> linarith [(hv i).1, (hv i).2]
  have post : ∀ v : ι → Fl φ, FlBox lo hi (δ + (γ + 10 * Fl.unit φ) * (B + δ)) v → FlBox lo hi (δ + (γ + 10 * Fl.unit φ) * (B + δ)) (p v) := fun v hv i => by
    have : 0 ≤ (γ + 10 * Fl.unit φ) * (B + δ) := mul_nonneg (by positivity) ((abs_nonneg _).trans (hl i))
    exact hp' _ (by linarith) v hv i
  by_cases hsel : s'.pIdx.Sel m k
  · obtain ⟨c, d, ns, xm, cs⟩ := cboStep_facts hcorr hno hg hperm hw h
    obtain ⟨i, hi', j, hj, r1, r2, r3⟩ := cs.sel m k hsel
    have hix := preStep_idx env hperm hw
    have hpr : s'.pIdx.run i = s.active.getD i 0 := by rw [fr.pIdx, hix.pRun i hi']
    have hcr : s'.cIdx.run i = s.active.getD i 0 := by rw [fr.cIdx, hix.cRun i hi']
    have hact : s.active.getD i 0 = m := by rw [← hpr, r1]
    have hpost : s'.x.get m k = p (xm.get m k) := by
      obtain ⟨q, hq1, hq2⟩ := cs.post
      rw [hpm q, hq1] at hq2
      injection hq2 with hq2
      rw [← hq2]; rfl
    rw [hpost]
    apply post
    rw [r3, cs.dget i hi' j hj, r1, r2]
    have hcols : s'.cIdx.cols = s.batchSize := by rw [fr.cIdx, hix.cCols]
    have hbox : ∀ q ∈ sampleOf env { s with cIdx := s'.cIdx } i, (q.1 = s.alpha m ∧ E (s.alpha m) q.2.1) ∧ FlBox lo hi δ q.2.2 := by
      intro q hq
      simp only [sampleOf, List.mem_map, List.mem_range] at hq
      obtain ⟨b, hb', rfl⟩ := hq
      refine ⟨⟨by simp only [hact], hE _⟩, ?_⟩
      have := hix.cIn i (by rw [hix.cRows]; exact hi') b (by rw [← fr.cIdx]; exact hb')
      simp only
      rw [hcr, hact]
      refine hx _ ?_
      rw [fr.cIdx]
      exact this.2
    intro l
    have hlen : (sampleOf env { s with cIdx := s'.cIdx } i).length = s.batchSize := by simp [sampleOf, hcols]
    have hc := hR (s.alpha m) (sampleOf env { s with cIdx := s'.cIdx } i) (by intro h0; rw [h0] at hlen; simp at hlen; omega) (by rw [hlen]; exact hbn) (fun q hq => (hbox q hq).1) l
      (lo l - δ) (hi l + δ) (B + δ) (hl l) (hh l) (fun q hq => (hbox q hq).2 l)
    rw [← cs.cget i hi'] at hc
    have := move_box hp (hl l) (hh l) γ0 γ1 (hx k hk l) hc hn.factor
    have e : (s.x.get m k + cboUpdate s.lamda s.dt s.sigma (s.x.get m k - c.get i 0) (ns.get i j)) l =
        s.x.get m k l + (-s.lamda * s.dt) * (s.x.get m k l - c.get i 0 l) := by
      show s.x.get m k l + ((-s.lamda * s.dt) * (s.x.get m k l - c.get i 0 l) + s.sigma * ns.get i j l) = _
      rw [hn.1]
      have : (0 : Fl φ) * ns.get i j l = 0 := Fl.ext (by rw [Fl.val_mul, Fl.val_zero, zero_mul, φ.near.zero])
      rw [this, Fl.add_zero']
    rw [e]
    constructor <;> linarith [this.1, this.2]
  · obtain ⟨c, d, ns, xm, cs⟩ := cboStep_facts hcorr hno hg hperm hw h
    have hpost : s'.x.get m k = p (xm.get m k) := by
      obtain ⟨q, hq1, hq2⟩ := cs.post
      rw [hpm q, hq1] at hq2
      injection hq2 with hq2
      rw [← hq2]; rfl
    rw [hpost, cs.unsel m k hsel]
    exact post _ (weak _ (hx k hk))

/-- Any sequence of operations. -/
theorem box_run (hp : 3 ≤ φ.p) {env : Env (Fl φ) (ι → Fl φ)} (hcorr : env.corr = .none) (hno : NoiseShape env) (hperm : PermOK env) {g : List (Fl φ × Flt (Fl φ) × (ι → Fl φ)) → ι → Fl φ}
    (hg : env.cons = .mean g) {p : (ι → Fl φ) → ι → Fl φ} (hpm : PostMap env p) {n : ℕ} {E : Fl φ → Flt (Fl φ) → Prop} {γ : ℝ} (hR : HullRule g n E γ) (γ0 : 0 ≤ γ) (γ1 : γ ≤ 1) {m : ℕ}
    (hsched : ∀ q r, FlNoiseFree q.sigma q.lamda q.dt → (∀ v, E (q.alpha m) (env.f v)) → env.sched q = .ok r →
      FlNoiseFree r.sigma r.lamda r.dt ∧ ∀ v, E (r.alpha m) (env.f v))
    {lo hi : ι → ℝ} {B : ℝ} (B0 : 0 ≤ B) (hlo : ∀ i, |lo i| ≤ B) (hhi : ∀ i, |hi i| ≤ B) (hp' : ∀ ε, 0 ≤ ε → ∀ v, FlBox lo hi ε v → FlBox lo hi ε (p v)) :
    ∀ (ops : List Op) (k : ℕ) (s s' : St (Fl φ) (ι → Fl φ)), WF s → 1 ≤ s.batchSize → s.batchSize ≤ n → FlNoiseFree s.sigma s.lamda s.dt → (∀ v, E (s.alpha m) (env.f v)) →
      (∀ j < s.N, FlBox lo hi (((1 + (γ + 10 * Fl.unit φ)) ^ k - 1) * B) (s.x.get m j)) → execAll env (cboInner env) ops s = .ok s' →
      ∀ j < s.N, FlBox lo hi (((1 + (γ + 10 * Fl.unit φ)) ^ (k + ops.count .step) - 1) * B) (s'.x.get m j)
  | [], k, s, s', _, _, _, _, _, hx, h => by
    simp only [execAll] at h
    injection h with h
    subst h
    simpa using hx
  | o :: l, k, s, s', hw, hb, hbn, hn, hE, hx, h => by
    simp only [execAll, bind_ok] at h
    obtain ⟨q, hq, hl⟩ := h
    have u0 := Fl.unit_pos (φ := φ)
    have hwq : WF q := exec_wf (cboMove_ok env) hpm.ok hperm hw (by rw [← cboInner_eq]; exact hq)
    obtain ⟨b1, -, b3⟩ := exec_bs (cboInner_frame env) hq
    have hpar : FlNoiseFree q.sigma q.lamda q.dt ∧ ∀ v, E (q.alpha m) (env.f v) := by
      cases o with
      | step => have fr := step_frame (cboInner_frame env) hq; rw [fr.sigma, fr.lamda, fr.dt, fr.alpha]; exact ⟨hn, hE⟩
      | select => have fr := select_frame hq; rw [fr]; exact ⟨hn, hE⟩
      | sched =>
        simp only [exec, schedUpdate, bind_ok, pure_ok] at hq
        obtain ⟨r, hr, rfl⟩ := hq
        exact hsched s r hn hE hr
      | reset =>
        simp only [exec] at hq
        injection hq with hq
        subst hq
        exact ⟨hn, hE⟩
    have hx' : ∀ j < q.N, FlBox lo hi (((1 + (γ + 10 * Fl.unit φ)) ^ (k + if o = .step then 1 else 0) - 1) * B) (q.x.get m j) := by
      rw [b3]
      by_cases ho : o = .step
      · subst ho
        have hpow : (1 : ℝ) ≤ (1 + (γ + 10 * Fl.unit φ)) ^ k := one_le_pow₀ (by nlinarith)
        have := box_step hp hcorr hno hperm hg hpm hR γ0 γ1 hw hb hbn hn hE hlo hhi (mul_nonneg (by linarith) B0) hp' hx hq
        intro j hj
        have e : ((1 + (γ + 10 * Fl.unit φ)) ^ (k + 1) - 1) * B = ((1 + (γ + 10 * Fl.unit φ)) ^ k - 1) * B + (γ + 10 * Fl.unit φ) * (B + ((1 + (γ + 10 * Fl.unit φ)) ^ k - 1) * B) := by ring
        rw [if_pos rfl, e]
        exact this j hj
      · have : q.x = s.x := by
          cases o with
          | step => exact absurd rfl ho
          | select => have fr := select_frame hq; rw [fr]
          | sched => have fr := sched_frame hq; rw [fr]
          | reset =>
            simp only [exec] at hq
            injection hq with hq
            subst hq
            rfl
        rw [this, if_neg ho]
        simpa using hx
    have := box_run hp hcorr hno hperm hg hpm hR γ0 γ1 hsched B0 hlo hhi hp' l _ q s' hwq (by rw [b1]; exact hb) (by rw [b1]; exact hbn) hpar.1 hpar.2 hx' hl
    rw [b3] at this
    convert this using 6
    rw [List.count_cons]
    by_cases ho : o = .step
    · simp [ho]; omega
    · simp [ho]

/-! ### The consensus rules -/

/-- A convex combination. -/
theorem gibbs_between {n : ℕ} [NeZero n] (alpha : ℝ) (e x : Fin n → ℝ) {lo hi : ℝ} (hx : ∀ i, lo ≤ x i ∧ x i ≤ hi) :
    lo ≤ ∑ i, gibbsWeight alpha e i * x i ∧ ∑ i, gibbsWeight alpha e i * x i ≤ hi := by
  have hs := gibbsWeight_sum alpha e
  have h0 := gibbsWeight_nonneg alpha e
  constructor
  · calc lo = ∑ i, gibbsWeight alpha e i * lo := by rw [← Finset.sum_mul, hs, one_mul]
      _ ≤ _ := Finset.sum_le_sum fun i _ => mul_le_mul_of_nonneg_left (hx i).1 (h0 i)
  · calc _ ≤ ∑ i, gibbsWeight alpha e i * hi := Finset.sum_le_sum fun i _ => mul_le_mul_of_nonneg_left (hx i).2 (h0 i)
      _ = hi := by rw [← Finset.sum_mul, hs, one_mul]

theorem isFloat_eval {p : ℕ} {rd : ℝ → ℝ} (h : RoundNearest p rd) {κ : Type} {f : κ → ℝ} (hf : ∀ i, IsFloat p (f i)) (t : SumTree κ) : IsFloat p (t.eval (Arith.ofRound rd).add f) := by
  cases t with
  | leaf i => exact hf i
  | node l r => exact (h _).1

theorem isFloat_consensus {n : ℕ} (t t' : SumTree (Fin n)) (alpha : ℝ) (e x : Fin n → ℝ) : IsFloat φ.p ((Arith.ofRound φ.rd).consensus t t' alpha e x) :=
  isFloat_eval φ.near (fun _ => (φ.near _).1) t'

theorem hullRule_default (t t' : ∀ n, SumTree (Fin (n + 1))) (ht : ∀ n, (t n).Covers) (ht' : ∀ n, (t' n).Covers) (n : ℕ) (W : ℝ)
    (hv : 10 * (Fl.unit φ * W) + 130 * ((n : ℝ) ^ 2 * Fl.unit φ) ≤ 1) :
    HullRule (flConsDefault (φ := φ) (ι := ι) t t') n (BoundedWeight W) (10 * (Fl.unit φ * W) + 130 * ((n : ℝ) ^ 2 * Fl.unit φ)) := by
  intro alpha l hne hlen hE i lo hi B hlo hhi hbox
  cases l with
  | nil => exact absurd rfl hne
  | cons q l =>
    have u0 := Fl.unit_pos (φ := φ)
    have B0 := (abs_nonneg _).trans hlo
    have hget : ∀ j : Fin (l.length + 1), (q :: l).get j ∈ q :: l := fun j => List.get_mem _ _
    obtain ⟨ee, hee⟩ : ∃ ee : Fin (l.length + 1) → ℝ, ee = fun j => energyVal ((q :: l).get j).2.1 := ⟨_, rfl⟩
    obtain ⟨xx, hxx⟩ : ∃ xx : Fin (l.length + 1) → ℝ, xx = fun j => (((q :: l).get j).2.2 i).val := ⟨_, rfl⟩
    have hle : ((l.length + 1 : ℕ) : ℝ) ≤ n := by exact_mod_cast hlen
    have hsq : ((l.length + 1 : ℕ) : ℝ) ^ 2 * Fl.unit φ ≤ (n : ℝ) ^ 2 * Fl.unit φ := mul_le_mul_of_nonneg_right (pow_le_pow_left₀ (by positivity) hle 2) u0.le
    have := (C86_default_partial (Arith.ofRound φ.rd) (Fl.unit φ) 0 (φ.near.std φ.pos) (t l.length) (t' l.length) (ht _) (ht' _) q.1.val W B ee xx
      (fun j => by
        obtain ⟨h1, x, h2, h3⟩ := hE _ (hget j)
        rw [hee]; simp only; rw [h2, (hE q List.mem_cons_self).1]; exact h3)
      (fun j => by
        have h1 := hbox _ (hget j)
        rw [hxx]
        simp only
        rw [abs_le] at hlo hhi ⊢
        constructor <;> linarith [h1.1, h1.2, hlo.1, hhi.2])
      (by rw [add_zero]; linarith)).1
    have hb := gibbs_between q.1.val ee xx (fun j => by rw [hxx]; exact hbox _ (hget j))
    have e : (flConsDefault t t' (q :: l) i).val = (Arith.ofRound φ.rd).consensus (t l.length) (t' l.length) q.1.val ee xx := by
      rw [hee, hxx]
      exact φ.near.fix (isFloat_consensus _ _ _ _ _)
    rw [e]
    rw [add_zero, mul_zero, mul_zero, add_zero] at this
    have h2 := abs_le.1 (this.trans (mul_le_mul_of_nonneg_right (show 10 * (Fl.unit φ * W) + 130 * (((l.length + 1 : ℕ) : ℝ) ^ 2 * Fl.unit φ) ≤
      10 * (Fl.unit φ * W) + 130 * ((n : ℝ) ^ 2 * Fl.unit φ) by linarith) B0))
    constructor <;> linarith [h2.1, h2.2, hb.1, hb.2]

theorem hullRule_rescale (t t' : ∀ n, SumTree (Fin (n + 1))) (ht : ∀ n, (t n).Covers) (ht' : ∀ n, (t' n).Covers) (n : ℕ) (hv : 100 * ((n : ℝ) ^ 2 * Fl.unit φ) ≤ 1) :
    HullRule (flConsRescale (φ := φ) (ι := ι) t t') n FiniteEnergy (100 * ((n : ℝ) ^ 2 * Fl.unit φ)) := by
  intro alpha l hne hlen hE i lo hi B hlo hhi hbox
  cases l with
  | nil => exact absurd rfl hne
  | cons q l =>
    have u0 := Fl.unit_pos (φ := φ)
    have B0 := (abs_nonneg _).trans hlo
    have hget : ∀ j : Fin (l.length + 1), (q :: l).get j ∈ q :: l := fun j => List.get_mem _ _
    obtain ⟨ee, hee⟩ : ∃ ee : Fin (l.length + 1) → ℝ, ee = fun j => energyVal ((q :: l).get j).2.1 := ⟨_, rfl⟩
    obtain ⟨xx, hxx⟩ : ∃ xx : Fin (l.length + 1) → ℝ, xx = fun j => (((q :: l).get j).2.2 i).val := ⟨_, rfl⟩
    have hle : ((l.length + 1 : ℕ) : ℝ) ≤ n := by exact_mod_cast hlen
    have hsq : ((l.length + 1 : ℕ) : ℝ) ^ 2 * Fl.unit φ ≤ (n : ℝ) ^ 2 * Fl.unit φ := mul_le_mul_of_nonneg_right (pow_le_pow_left₀ (by positivity) hle 2) u0.le
    have := C86_rescaled (Arith.ofRound φ.rd) (Fl.unit φ) 0 (φ.near.std φ.pos) (t l.length) (t' l.length) (ht _) (ht' _) q.1.val B ee xx
      (by have := hE q List.mem_cons_self; rw [this.1]; exact this.2.1)
      (fun j => by
        have h1 := hbox _ (hget j)
        rw [hxx]
        simp only
        rw [abs_le] at hlo hhi ⊢
        constructor <;> linarith [h1.1, h1.2, hlo.1, hhi.2])
      (by rw [add_zero]; linarith)
    have hb := gibbs_between q.1.val ee xx (fun j => by rw [hxx]; exact hbox _ (hget j))
    have e : (flConsRescale t t' (q :: l) i).val = (Arith.ofRound φ.rd).rescaled (t l.length) (t' l.length) q.1.val ee xx := by
      rw [hee, hxx]
      exact φ.near.fix (isFloat_consensus _ _ _ _ _)
    rw [e]
    rw [add_zero, mul_zero, mul_zero, add_zero] at this
    have h2 := abs_le.1 (this.trans (mul_le_mul_of_nonneg_right (show 100 * (((l.length + 1 : ℕ) : ℝ) ^ 2 * Fl.unit φ) ≤ 100 * ((n : ℝ) ^ 2 * Fl.unit φ) by linarith) B0))
    constructor <;> linarith [h2.1, h2.2, hb.1, hb.2]

/-! ### Orders of the additions -/

/-- Summation from right to left. -/
def SumTree.chain {κ : Type} : κ → List κ → SumTree κ
  | a, [] => .leaf a
  | a, b :: l => .node (.leaf a) (chain b l)

theorem SumTree.chain_leaves {κ : Type} : ∀ (a : κ) (l : List κ), (SumTree.chain a l).leaves = a :: l
  | _, [] => rfl
  | a, b :: l => by rw [SumTree.chain, SumTree.leaves, SumTree.chain_leaves b l]; rfl

/-- Summation of `n + 1` numbers. -/
def Example.tree (n : ℕ) : SumTree (Fin (n + 1)) := SumTree.chain 0 ((List.finRange n).map Fin.succ)

theorem Example.tree_covers (n : ℕ) : (Example.tree n).Covers := by
  unfold SumTree.Covers Example.tree
  rw [SumTree.chain_leaves, List.finRange_succ]

end Verif
