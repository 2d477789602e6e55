{
"C22": {"note": "State closed form, de-biased output, convexity weights and range proved in full for debias=True. The last sentence (debias=False returns the moving average) is false of the code: it returns the raw gradients (transform.py ema, `updates` is returned unless debias). Negation: C22_no_debias_false. The _partial theorem covers everything else."},
"C29": {"note": "The code squares the signed square a second time (transform.py scale_by_yogi calls _update_moment with order 2 on the already squared moment and starts from 1e-6), so the paper's bound is false: C29_false. The _partial theorems give the step the code really performs, and non-negativity of the accumulator."},
"C30": {"note": "Proved for counts below 2^30. `2 * count_inc` is an int32 product and wraps at 2^30, after which ro_t is meaningless: C30_ro_wraps. The _partial theorem has that bound as hypothesis."},
"C44": {"note": "Proved whenever the integer boundaries int(pct_start*steps) < int(pct_final*steps) < steps are distinct and positive. For short transitions they collide (C44_collision) or are 0 and the schedule returns NaN (C44_zero_boundary_nan, C44_short_transition_nan), so the full statement is false of the code."},
"C63": {"note": "The repository's mat_power computes M^p only for p in {1,2,4,8} (p=3 gives M^4, p=16 gives M^8), so the invariant and result hold for those p (C63_inverse_root_partial) and fail otherwise (C63_fails). Termination and the 1x1 case are proved for every p."},
"C68": {"note": "False of the code as stated: the de-biasing divides the stored value, so the correction compounds (C68_fails: constant c gives c, then c/(1-d^2)). Proved: exact recurrence (C68_state), first step, plain moving average when zero_debias=False (C68_ema), over-estimation by a bounded factor, range and convergence in the limit (_partial)."}
}
