import Verif.Lemmas.Discrete
import Verif.Spec.DiscMoments

/-! Central moments of a discrete distribution from its factorial moments. -/

namespace Mpsci

open Classical Num Spec

variable {f : ℤ → ℝ} {a b c d : ℝ}

theorem hasSum_central3 (h0 : HasSum f 1) (h1 : HasSum (fun k : ℤ => (k:ℝ) * f k) a)
    (h2 : HasSum (fun k : ℤ => (k:ℝ) * ((k:ℝ) - 1) * f k) b) (h3 : HasSum (fun k : ℤ => (k:ℝ) * ((k:ℝ) - 1) * ((k:ℝ) - 2) * f k) c) :
    HasSum (fun k : ℤ => ((k:ℝ) - a) ^ 3 * f k) (c + 3 * b + a - 3 * a * (b + a) + 2 * a ^ 3) :=
  hasSum_of (((h3.add (h2.mul_left (3 - 3 * a))).add (h1.mul_left (1 - 3 * a + 3 * a ^ 2))).add (h0.mul_left (-a ^ 3)))
    (fun k => by ring) (by ring)

theorem hasSum_central4 (h0 : HasSum f 1) (h1 : HasSum (fun k : ℤ => (k:ℝ) * f k) a)
    (h2 : HasSum (fun k : ℤ => (k:ℝ) * ((k:ℝ) - 1) * f k) b) (h3 : HasSum (fun k : ℤ => (k:ℝ) * ((k:ℝ) - 1) * ((k:ℝ) - 2) * f k) c)
    (h4 : HasSum (fun k : ℤ => (k:ℝ) * ((k:ℝ) - 1) * ((k:ℝ) - 2) * ((k:ℝ) - 3) * f k) d) :
    HasSum (fun k : ℤ => ((k:ℝ) - a) ^ 4 * f k) (d + 6 * c + 7 * b + a - 4 * a * (c + 3 * b + a) + 6 * a ^ 2 * (b + a) - 3 * a ^ 4) :=
  hasSum_of ((((h4.add (h3.mul_left (6 - 4 * a))).add (h2.mul_left (7 - 12 * a + 6 * a ^ 2))).add
    (h1.mul_left (1 - 4 * a + 6 * a ^ 2 - 4 * a ^ 3))).add (h0.mul_left (a ^ 4)))
    (fun k => by ring) (by ring)

end Mpsci
