import Verif.Props.RateLimiters
/-!
# The token bucket and a wall clock that is adjusted: C76

`BucketRateLimiter.when` reads `time.time()` (`default_rate_limiters.py` line 38), which is not monotonic.
-/
namespace Aiok8s.RateLimiters

/-- How far the clock went forward between the calls, in seconds; steps back do not count. -/
def forward : ℚ → List ℚ → ℚ
  | _, [] => 0
  | last, now :: nows => max 0 (now / 1000000000 - last / 1000000000) + forward now nows

private theorem advance_back (c : BucketCfg) (hc : c.valid) (b : Bucket) (now : ℚ) (h : now ≤ b.last)
    (ht : b.tokens ≤ c.burst) : advance c b now = b.tokens := by
  have hl : 0 < c.limit := not_le.1 hc.1
  have hm : 0 ≤ 1000000000 * (c.burst - b.tokens) / c.limit := by
    apply div_nonneg _ hl.le
    linarith
  have he : min (now - min b.last now) (1000000000 * (c.burst - b.tokens) / c.limit) = 0 := by
    rw [min_eq_right h, sub_self, min_eq_left hm]
  simp only [advance, he]
  rw [zero_mul, zero_div, add_zero, min_eq_left ht]

private theorem advance_forward (c : BucketCfg) (hc : c.valid) (b : Bucket) (now : ℚ)
    (ht : b.tokens ≤ c.burst) :
    advance c b now ≤ b.tokens + c.limit * max 0 (now / 1000000000 - b.last / 1000000000) := by
  have hl : 0 < c.limit := not_le.1 hc.1
  rcases le_total b.last now with h | h
  · rw [advance_eq c hc b now h]
    refine (min_le_right _ _).trans ?_
    have := mul_le_mul_of_nonneg_left (le_max_right 0 (now / 1000000000 - b.last / 1000000000)) hl.le
    linarith
  · rw [advance_back c hc b now h ht]
    have := mul_nonneg hl.le (le_max_left 0 (now / 1000000000 - b.last / 1000000000))
    linarith

private theorem forward_nonneg : ∀ (nows : List ℚ) (last : ℚ), 0 ≤ forward last nows := by
  intro nows
  induction nows with
  | nil => intro last; exact le_refl _
  | cons n nows ih =>
    intro last
    have h1 := ih n
    have h2 := le_max_left (0 : ℚ) (n / 1000000000 - last / 1000000000)
    simp only [forward]
    linarith

private theorem free_calls (c : BucketCfg) (hc : c.valid) : ∀ (nows : List ℚ) (b : Bucket),
    b.tokens ≤ c.burst →
    ((bucketWaits c b nows).count 0 : ℚ) ≤ max 0 (b.tokens + c.limit * forward b.last nows) := by
  intro nows
  have hl : 0 < c.limit := not_le.1 hc.1
  induction nows with
  | nil => intro b _; simp [bucketWaits]
  | cons n nows ih =>
    intro b hb
    have ht : (bucketWhen c b n).1.tokens ≤ c.burst := by
      have := advance_le c b n
      simp only [bucketWhen]
      linarith
    have h1 := ih (bucketWhen c b n).1 ht
    have h2 : (bucketWhen c b n).1.tokens + 1 ≤
        b.tokens + c.limit * max 0 (n / 1000000000 - b.last / 1000000000) := by
      have := advance_forward c hc b n hb
      simp only [bucketWhen]
      linarith
    have hF := forward_nonneg nows n
    have hlast : (bucketWhen c b n).1.last = n := rfl
    rw [hlast] at h1
    have hLF := mul_nonneg hl.le hF
    simp only [bucketWaits, List.count_cons, forward]
    rw [mul_add]
    rcases ready_eq c hc b n with ⟨h3, h4⟩ | ⟨h3, h4⟩
    · rw [h4]
      simp only [beq_self_eq_true, if_true, Nat.cast_add, Nat.cast_one]
      rw [max_eq_right (by linarith)] at h1
      refine le_trans ?_ (le_max_right _ _)
      linarith
    · have hne : ((bucketWhen c b n).2 == 0) = false := by
        rw [beq_eq_false_iff_ne]
        intro h0
        rw [h0, mul_zero] at h4
        linarith
      rw [hne]
      simp only [Bool.false_eq_true, if_false, Nat.add_zero]
      refine h1.trans (max_le_max (le_refl _) ?_)
      linarith

/-- **C76**, in the clock's own time: whatever the clock does, of any calls on a new bucket at most
`burst` plus `limit` times the time the clock went forward need no wait.  Missing: real time, see
`C76_refuted`. -/
theorem C76_partial (c : BucketCfg) (hc : c.valid) (now : ℚ) (nows : List ℚ) :
    ((bucketWaits c bucketInit (now :: nows)).count 0 : ℚ) ≤ c.burst + c.limit * forward now nows := by
  have hl : 0 < c.limit := not_le.1 hc.1
  have hb : 1 ≤ c.burst := not_lt.1 hc.2
  have ht : (bucketWhen c bucketInit now).1.tokens ≤ c.burst - 1 := by
    have := advance_le c bucketInit now
    simp only [bucketWhen]
    linarith
  have h1 := free_calls c hc nows (bucketWhen c bucketInit now).1 (by linarith)
  have hlast : (bucketWhen c bucketInit now).1.last = now := rfl
  rw [hlast] at h1
  have hLF := mul_nonneg hl.le (forward_nonneg nows now)
  have h2 : max 0 ((bucketWhen c bucketInit now).1.tokens + c.limit * forward now nows) ≤
      c.burst - 1 + c.limit * forward now nows := max_le (by linarith) (by linarith)
  simp only [bucketWaits, List.count_cons, Nat.cast_add]
  have h3 : (((if (bucketWhen c bucketInit now).2 == 0 then 1 else 0 : Nat)) : ℚ) ≤ 1 := by
    split <;> norm_num
  linarith

-- the bound is reached: burst 2, one token per second, the clock goes 1 s forward, back and forward
example : (⟨1, 2⟩ : BucketCfg).valid ∧
    bucketWaits ⟨1, 2⟩ bucketInit [5000000000, 5000000000, 6000000000, 5000000000, 6000000000] = [0, 0, 0, 1, 1] ∧
    forward 5000000000 [5000000000, 6000000000, 5000000000, 6000000000] = 2 := by
  refine ⟨?_, ?_, ?_⟩
  · constructor <;> norm_num
  · norm_num [bucketWaits, bucketWhen, advance, bucketInit]
  · norm_num [forward]

/-- **C76** is false: if the clock is set forward and back between the calls, any number of calls at one
moment need no wait, for every limit and every burst from 2 on.  A call is its real time and the
adjustment of the clock at that time. -/
theorem C76_refuted (c : BucketCfg) (hc : c.valid) (h2 : 2 ≤ c.burst) (N : Nat) :
    ∃ calls : List (ℚ × ℚ), calls.length = N ∧ (∀ p ∈ calls, p.1 = 0) ∧
      ∀ w ∈ bucketWaits c bucketInit (calls.map fun p => p.1 + p.2), w = 0 := by
  have hl : 0 < c.limit := not_le.1 hc.1
  -- the clock reads `T` and 0 in turn
  let T : ℚ := 1000000000 * (c.burst / c.limit)
  have hT : 0 ≤ T := by positivity
  have hTb : c.limit * (T / 1000000000) = c.burst := by
    simp only [T]
    field_simp
  have low : ∀ b : Bucket, b.last = T → b.tokens = c.burst - 1 →
      bucketWhen c b 0 = (⟨c.burst - 2, 0⟩, 0) := by
    intro b hb ht
    have := advance_back c hc b 0 (by rw [hb]; exact hT) (by rw [ht]; linarith)
    simp only [bucketWhen, this, ht]
    rw [if_neg (by linarith)]
    congr 2
    ring
  have high : ∀ b : Bucket, b.last = 0 → 0 ≤ b.tokens → bucketWhen c b T = (⟨c.burst - 1, T⟩, 0) := by
    intro b hb ht
    have : advance c b T = c.burst := by
      rw [advance_eq c hc b T (by rw [hb]; exact hT), hb, zero_div, sub_zero, hTb]
      exact min_eq_left (by linarith)
    simp only [bucketWhen, this]
    rw [if_neg (by linarith)]
  have main : ∀ N (b : Bucket), (b.last = 0 ∧ 0 ≤ b.tokens → ∃ calls : List (ℚ × ℚ), calls.length = N ∧
        (∀ p ∈ calls, p.1 = 0) ∧ ∀ w ∈ bucketWaits c b (calls.map fun p => p.1 + p.2), w = 0) ∧
      (b.last = T ∧ b.tokens = c.burst - 1 → ∃ calls : List (ℚ × ℚ), calls.length = N ∧
        (∀ p ∈ calls, p.1 = 0) ∧ ∀ w ∈ bucketWaits c b (calls.map fun p => p.1 + p.2), w = 0) := by
    intro N
    induction N with
    | zero => intro b; exact ⟨fun _ => ⟨[], rfl, by simp, by simp [bucketWaits]⟩,
        fun _ => ⟨[], rfl, by simp, by simp [bucketWaits]⟩⟩
    | succ N ih =>
      intro b
      constructor
      · rintro ⟨h1, h3⟩
        have hb := high b h1 h3
        obtain ⟨calls, g1, g2, g3⟩ := (ih ⟨c.burst - 1, T⟩).2 ⟨rfl, rfl⟩
        refine ⟨(0, T) :: calls, by simp [g1], ?_, ?_⟩
        · intro p hp
          rcases List.mem_cons.1 hp with rfl | hp
          · rfl
          · exact g2 p hp
        · simp only [List.map_cons, zero_add, bucketWaits, hb]
          intro w hw
          rcases List.mem_cons.1 hw with rfl | hw
          · rfl
          · exact g3 w hw
      · rintro ⟨h1, h3⟩
        have hb := low b h1 h3
        obtain ⟨calls, g1, g2, g3⟩ := (ih ⟨c.burst - 2, 0⟩).1 ⟨rfl, by simp only; linarith⟩
        refine ⟨(0, 0) :: calls, by simp [g1], ?_, ?_⟩
        · intro p hp
          rcases List.mem_cons.1 hp with rfl | hp
          · rfl
          · exact g2 p hp
        · simp only [List.map_cons, zero_add, bucketWaits, hb]
          intro w hw
          rcases List.mem_cons.1 hw with rfl | hw
          · rfl
          · exact g3 w hw
  exact (main N bucketInit).1 ⟨rfl, le_refl _⟩

end Aiok8s.RateLimiters
