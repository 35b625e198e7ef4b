import Verif.Proofs.Hist
import Verif.Spec.Example
import Verif.Props.Frozen

/-! Property C39: the tracked history. (Aliasing of entry 0 of `history['x']` is the subject of C40.) -/

set_option linter.unusedSectionVars false

namespace Verif

variable {K V : Type} [Zero K] [One K] [Neg K] [Add K] [Sub K] [Mul K] [Inv K] [Div K] [NatCast K] [Pow K ℕ] [LinearOrder K] [Add V] [Sub V] [SMul K V]

/-- **C39 (length).** After any sequence of steps, checks and scheduler updates from construction, every tracked quantity
(repetition-free tracker list) has `⌈k / save_int⌉` entries where `k` is the number of steps, and `x` one more. -/
theorem C39_length (env : Env K V) (inner : St K V → Except Err (St K V)) (hi : InnerFrame inner) (a : Args K V)
    (s₀ s : St K V) (ops : List Op) (h0 : init env a = .ok s₀) (hs : 1 ≤ a.saveInt) (hn : a.tracks.Nodup)
    (hr : Op.reset ∉ ops) (h : execAll env inner ops s₀ = .ok s) (t : Track) (ht : t ∈ a.tracks)
    (hto : ∀ i, t ≠ .other i) :
    (s.hist t).length = (nSteps ops + a.saveInt - 1) / a.saveInt + (if t = .x then 1 else 0) := by
  have := (histInv_execAll hi hn hr (histInv_init h0 hs) h).1.len t ht hto
  rw [Nat.zero_add] at this
  exact this

/-- **C39 (content).** If `u` is the state after a step that started in iteration `k`, `k` a multiple of `save_int`, then
entry number `k / save_int` (one later for `x`) of every tracked quantity is the value of that quantity in `u`, and it stays
so after every further sequence of steps, checks and scheduler updates. -/
theorem C39_entry (env : Env K V) (inner : St K V → Except Err (St K V)) (hi : InnerFrame inner) (a : Args K V)
    (s₀ q u s : St K V) (ops₁ ops₂ : List Op) (h0 : init env a = .ok s₀) (hs : 1 ≤ a.saveInt) (hn : a.tracks.Nodup)
    (hr₁ : Op.reset ∉ ops₁) (hr₂ : Op.reset ∉ ops₂) (h1 : execAll env inner ops₁ s₀ = .ok q)
    (hu : step env inner q = .ok u) (h2 : execAll env inner ops₂ u = .ok s)
    (hk : nSteps ops₁ % a.saveInt = 0) (t : Track) (ht : t ∈ a.tracks) (hto : ∀ i, t ≠ .other i) :
    (s.hist t)[nSteps ops₁ / a.saveInt + (if t = .x then 1 else 0)]? = (match t with
      | .updateNorm => some (.updateNorm u.updDiff)
      | .energy => some (.energy u.energy)
      | .x => some (.x u.x)
      | .consensus => some (.consensus u.cons)
      | .driftMean => some (.driftMean u.drift)
      | .drift => some (.drift u.drift u.pIdx)
      | .other _ => none) := by
  have I1 := (histInv_execAll hi hn hr₁ (histInv_init h0 hs) h1).1
  rw [Nat.zero_add] at I1
  have I2 := histInv_exec hi hn (o := .step) (by decide) I1 hu
  have I3 := (histInv_execAll hi hn hr₂ I2.1 h2).2 t
  have hh := (step_hist hi hu (by rw [I1.tracks]; exact hn) t).1
  rw [I1.it, I1.saveInt, I1.tracks, if_pos ⟨hk, ht⟩] at hh
  have hlen : (q.hist t).length = nSteps ops₁ / a.saveInt + (if t = .x then 1 else 0) := by
    rw [I1.len t ht hto]
    show _ + off t = _ + off t
    congr 1
    obtain ⟨c, hc⟩ := Nat.dvd_of_mod_eq_zero hk
    rw [hc, Nat.mul_div_cancel_left _ (by omega)]
    apply Nat.div_eq_of_lt_le
    · rw [Nat.mul_comm]; omega
    · rw [Nat.succ_mul, Nat.mul_comm]; omega
  have hu' : (u.hist t)[nSteps ops₁ / a.saveInt + (if t = .x then 1 else 0)]? = (trackEntry u t)[0]? := by
    rw [hh, ← hlen, List.getElem?_append_right (Nat.le_refl _), Nat.sub_self]
  have hul : nSteps ops₁ / a.saveInt + (if t = .x then 1 else 0) < (u.hist t).length := by
    rw [hh, List.length_append, hlen, trackEntry_len u hto]; omega
  obtain ⟨w, hw⟩ := I3
  rw [← hw, List.getElem?_append_left hul, hu']
  cases t <;> first | rfl | exact absurd rfl (hto _)

/-- C39: in the example with interval 2 the requirements hold, and after 5 steps there are 3 energy entries and 4 position
entries. -/
example : (Example.args [] none).tracks.Nodup ∧
    (match init Example.env { Example.args [] none with saveInt := 2 } with
      | .ok s₀ => (match execAll Example.env (cboInner Example.env) [.step, .step, .select, .step, .sched, .step, .step] s₀ with
        | .ok s => decide ((s.hist .energy).length = 3 ∧ (s.hist .x).length = 4)
        | _ => false)
      | _ => false) = true := by
  refine ⟨by decide, by decide +kernel⟩

end Verif
