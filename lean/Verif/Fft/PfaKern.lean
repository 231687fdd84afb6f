import Mathlib.Analysis.SpecialFunctions.Trigonometric.Basic
import Mathlib.Analysis.SpecialFunctions.Complex.Log

/-!
# The butterflies of the prime-factor transform (FFTlib/pfafft.c:96-1264, 1418-2760)

`pfacc` and `pfamcc` contain the same ten butterflies, text by text.  The code keeps real and imaginary parts in separate
variables; a pair `t1r`, `t1i` is one complex number `t1` here, and `z[j] = y1r-y2i; z[j+1] = y1i+y2r;` is `y1 + I*y2`.
`z 0`, `z 1`, ... are the elements at `j0`, `j1`, ...; the result lists the new elements in the same order.  The definitions
`bodyN` follow the C text line by line.  The constants are the exact values of the expressions in pfaconst.h:5-45.
-/

namespace Verif.Fft.Pfa

open Complex

noncomputable section

/-- pfaconst.h:5 -/
def P120 : ℝ := Real.sin (1 * Real.pi / 26)
/-- pfaconst.h:6 -/
def P142 : ℝ := Real.sin (1 * Real.pi / 22)
/-- pfaconst.h:7 -/
def P173 : ℝ := Real.sin (1 * Real.pi / 18)
/-- pfaconst.h:8 -/
def P222 : ℝ := Real.sin (1 * Real.pi / 14)
/-- pfaconst.h:9 -/
def P239 : ℝ := Real.sin (1 * Real.pi / 13)
/-- pfaconst.h:10 -/
def P281 : ℝ := Real.sin (1 * Real.pi / 11)
/-- pfaconst.h:11 -/
def P342 : ℝ := Real.sin (1 * Real.pi / 9)
/-- pfaconst.h:12 -/
def P354 : ℝ := Real.sin (3 * Real.pi / 26)
/-- pfaconst.h:13 -/
def P382 : ℝ := Real.sin (1 * Real.pi / 8)
/-- pfaconst.h:14 -/
def P415 : ℝ := Real.sin (3 * Real.pi / 22)
/-- pfaconst.h:15 -/
def P433 : ℝ := Real.sin (1 * Real.pi / 7)
/-- pfaconst.h:16 -/
def P464 : ℝ := Real.sin (2 * Real.pi / 13)
/-- pfaconst.h:17 -/
def P540 : ℝ := Real.sin (2 * Real.pi / 11)
/-- pfaconst.h:18 -/
def P559 : ℝ := 1 / 4 + Real.sin (1 * Real.pi / 10)
/-- pfaconst.h:19 -/
def P568 : ℝ := Real.sin (5 * Real.pi / 26)
/-- pfaconst.h:20 -/
def P587 : ℝ := Real.sin (1 * Real.pi / 5)
/-- pfaconst.h:21 -/
def P623 : ℝ := Real.sin (3 * Real.pi / 14)
/-- pfaconst.h:22 -/
def P642 : ℝ := Real.sin (2 * Real.pi / 9)
/-- pfaconst.h:23 -/
def P654 : ℝ := Real.sin (5 * Real.pi / 22)
/-- pfaconst.h:24 -/
def P663 : ℝ := Real.sin (3 * Real.pi / 13)
/-- pfaconst.h:25 -/
def P707 : ℝ := Real.sin (1 * Real.pi / 4)
/-- pfaconst.h:26 -/
def P748 : ℝ := Real.sin (7 * Real.pi / 26)
/-- pfaconst.h:27 -/
def P755 : ℝ := Real.sin (3 * Real.pi / 11)
/-- pfaconst.h:28 -/
def P766 : ℝ := Real.sin (5 * Real.pi / 18)
/-- pfaconst.h:29 -/
def P781 : ℝ := Real.sin (2 * Real.pi / 7)
/-- pfaconst.h:30 -/
def P822 : ℝ := Real.sin (4 * Real.pi / 13)
/-- pfaconst.h:31 -/
def P841 : ℝ := Real.sin (7 * Real.pi / 22)
/-- pfaconst.h:32 -/
def P866 : ℝ := Real.sin (1 * Real.pi / 3)
/-- pfaconst.h:33 -/
def P885 : ℝ := Real.sin (9 * Real.pi / 26)
/-- pfaconst.h:34 -/
def P900 : ℝ := Real.sin (5 * Real.pi / 14)
/-- pfaconst.h:35 -/
def P909 : ℝ := Real.sin (4 * Real.pi / 11)
/-- pfaconst.h:36 -/
def P923 : ℝ := Real.sin (3 * Real.pi / 8)
/-- pfaconst.h:37 -/
def P935 : ℝ := Real.sin (5 * Real.pi / 13)
/-- pfaconst.h:38 -/
def P939 : ℝ := Real.sin (7 * Real.pi / 18)
/-- pfaconst.h:39 -/
def P951 : ℝ := Real.sin (2 * Real.pi / 5)
/-- pfaconst.h:40 -/
def P959 : ℝ := Real.sin (9 * Real.pi / 22)
/-- pfaconst.h:41 -/
def P970 : ℝ := Real.sin (11 * Real.pi / 26)
/-- pfaconst.h:42 -/
def P974 : ℝ := Real.sin (3 * Real.pi / 7)
/-- pfaconst.h:43 -/
def P984 : ℝ := Real.sin (4 * Real.pi / 9)
/-- pfaconst.h:44 -/
def P989 : ℝ := Real.sin (5 * Real.pi / 11)
/-- pfaconst.h:45 -/
def P992 : ℝ := Real.sin (6 * Real.pi / 13)

/-- Factor 2 (pfafft.c:102-114; the same at 1422-1440). -/
def body2 (z : Nat → ℂ) : List ℂ :=
  let t1 := z 0 - z 1
  [z 0 + z 1, t1]

/-- Factor 2 has no constants to choose (pfafft.c:102-114). -/
def kern2 (_mu : Nat) : (Nat → ℂ) → List ℂ := body2

/-- Factor 3 (pfafft.c:120-143; the same at 1446-1477). -/
def body3 (c1 : ℂ) (z : Nat → ℂ) : List ℂ :=
  let t1 := z 1 + z 2
  let y1 := z 0 - (1/2) * t1
  let y2 := c1 * (z 1 - z 2)
  [z 0 + t1, y1 + I * y2, y1 - I * y2]

/-- The choice of constants (pfafft.c:120-143). -/
def kern3 (mu : Nat) : (Nat → ℂ) → List ℂ :=
  if mu = 1 then body3 P866
  else body3 (-P866)

/-- Factor 4 (pfafft.c:149-177; the same at 1483-1521). -/
def body4 (c1 : ℂ) (z : Nat → ℂ) : List ℂ :=
  let t1 := z 0 + z 2
  let t2 := z 1 + z 3
  let y1 := z 0 - z 2
  let y3 := c1 * (z 1 - z 3)
  [t1 + t2, y1 + I * y3, t1 - t2, y1 - I * y3]

/-- The choice of constants (pfafft.c:149-177). -/
def kern4 (mu : Nat) : (Nat → ℂ) → List ℂ :=
  if mu = 1 then body4 1
  else body4 (-1)

/-- Factor 5 (pfafft.c:183-241; the same at 1527-1597). -/
def body5 (c1 c2 c3 : ℂ) (z : Nat → ℂ) : List ℂ :=
  let t1 := z 1 + z 4
  let t2 := z 2 + z 3
  let t3 := z 1 - z 4
  let t4 := z 2 - z 3
  let t5 := t1 + t2
  let t6 := c1 * (t1 - t2)
  let t7 := z 0 - (1/4) * t5
  let y1 := t7 + t6
  let y2 := t7 - t6
  let y3 := c3 * t3 - c2 * t4
  let y4 := c2 * t3 + c3 * t4
  [z 0 + t5, y1 + I * y4, y2 + I * y3, y2 - I * y3, y1 - I * y4]

/-- The choice of constants (pfafft.c:183-241). -/
def kern5 (mu : Nat) : (Nat → ℂ) → List ℂ :=
  if mu = 1 then body5 P559 P951 P587
  else if mu = 2 then body5 (-P559) P587 (-P951)
  else if mu = 3 then body5 (-P559) (-P587) P951
  else body5 P559 (-P951) (-P587)

/-- Factor 7 (pfafft.c:249-347; the same at 1605-1719). -/
def body7 (c1 c2 c3 c4 c5 c6 : ℂ) (z : Nat → ℂ) : List ℂ :=
  let t1 := z 1 + z 6
  let t2 := z 2 + z 5
  let t3 := z 3 + z 4
  let t4 := z 1 - z 6
  let t5 := z 2 - z 5
  let t6 := z 3 - z 4
  let t7 := z 0 - (1/2) * t3
  let t8 := t1 - t3
  let t9 := t2 - t3
  let y1 := t7 + c1 * t8 + c2 * t9
  let y2 := t7 + c2 * t8 + c3 * t9
  let y3 := t7 + c3 * t8 + c1 * t9
  let y4 := c6 * t4 - c4 * t5 + c5 * t6
  let y5 := c5 * t4 - c6 * t5 - c4 * t6
  let y6 := c4 * t4 + c5 * t5 + c6 * t6
  [z 0 + t1 + t2 + t3, y1 + I * y6, y2 + I * y5, y3 + I * y4, y3 - I * y4, y2 - I * y5, y1 - I * y6]

/-- The choice of constants (pfafft.c:249-347). -/
def kern7 (mu : Nat) : (Nat → ℂ) → List ℂ :=
  if mu = 1 then body7 P623 (-P222) (-P900) P781 P974 P433
  else if mu = 2 then body7 (-P222) (-P900) P623 P974 (-P433) (-P781)
  else if mu = 3 then body7 (-P900) P623 (-P222) P433 (-P781) P974
  else if mu = 4 then body7 (-P900) P623 (-P222) (-P433) P781 (-P974)
  else if mu = 5 then body7 (-P222) (-P900) P623 (-P974) P433 P781
  else body7 P623 (-P222) (-P900) (-P781) (-P974) (-P433)

/-- Factor 8 (pfafft.c:353-431; the same at 1725-1821). -/
def body8 (c1 c2 : ℂ) (z : Nat → ℂ) : List ℂ :=
  let c3 := c1 * c2
  let t1 := z 0 + z 4
  let t2 := z 0 - z 4
  let t3 := z 1 + z 5
  let t4 := z 1 - z 5
  let t5 := z 2 + z 6
  let t6 := c1 * (z 2 - z 6)
  let t7 := z 3 + z 7
  let t8 := z 3 - z 7
  let t9 := t1 + t5
  let t10 := t3 + t7
  let t11 := c2 * (t4 - t8)
  let t12 := c3 * (t4 + t8)
  let y1 := t2 + t11
  let y2 := t1 - t5
  let y3 := t2 - t11
  let y5 := t12 - t6
  let y6 := c1 * (t3 - t7)
  let y7 := t12 + t6
  [t9 + t10, y1 + I * y7, y2 + I * y6, y3 + I * y5, t9 - t10, y3 - I * y5, y2 - I * y6, y1 - I * y7]

/-- The choice of constants (pfafft.c:353-431). -/
def kern8 (mu : Nat) : (Nat → ℂ) → List ℂ :=
  if mu = 1 then body8 1 P707
  else if mu = 3 then body8 (-1) (-P707)
  else if mu = 5 then body8 1 (-P707)
  else body8 (-1) P707

/-- Factor 9 (pfafft.c:437-571; the same at 1827-1981). -/
def body9 (c1 c2 c3 c4 c5 : ℂ) (z : Nat → ℂ) : List ℂ :=
  let c6 := c1 * c2
  let c7 := c1 * c3
  let c8 := c1 * c4
  let c9 := c1 * c5
  let t1 := z 3 + z 6
  let t2 := z 0 - (1/2) * t1
  let t3 := c1 * (z 3 - z 6)
  let t4 := z 0 + t1
  let t5 := z 4 + z 7
  let t6 := z 1 - (1/2) * t5
  let t7 := z 4 - z 7
  let t8 := z 1 + t5
  let t9 := z 2 + z 5
  let t10 := z 8 - (1/2) * t9
  let t11 := z 2 - z 5
  let t12 := z 8 + t9
  let t13 := t8 + t12
  let t14 := t6 + t10
  let t15 := t6 - t10
  let t16 := t7 + t11
  let t17 := t7 - t11
  let t18 := c2 * t14 - c7 * t17
  let t19 := c4 * t14 + c9 * t17
  let t20 := c3 * t15 + c6 * t16
  let t21 := c5 * t15 - c8 * t16
  let t22 := t18 + t19
  let t23 := t20 - t21
  let y1 := t2 + t18
  let y2 := t2 + t19
  let y3 := t4 - (1/2) * t13
  let y4 := t2 - t22
  let y5 := t3 - t23
  let y6 := c1 * (t8 - t12)
  let y7 := t21 - t3
  let y8 := t3 + t20
  [t4 + t13, y1 + I * y8, y2 + I * y7, y3 + I * y6, y4 + I * y5, y4 - I * y5, y3 - I * y6, y2 - I * y7, y1 - I * y8]

/-- The choice of constants (pfafft.c:437-571). -/
def kern9 (mu : Nat) : (Nat → ℂ) → List ℂ :=
  if mu = 1 then body9 P866 P766 P642 P173 P984
  else if mu = 2 then body9 (-P866) P173 P984 (-P939) P342
  else if mu = 4 then body9 P866 (-P939) P342 P766 (-P642)
  else if mu = 5 then body9 (-P866) (-P939) (-P342) P766 P642
  else if mu = 7 then body9 P866 P173 (-P984) (-P939) (-P342)
  else body9 (-P866) P766 (-P642) P173 (-P984)

/-- Factor 11 (pfafft.c:579-777; the same at 1989-2211). -/
def body11 (c1 c2 c3 c4 c5 c6 c7 c8 c9 c10 : ℂ) (z : Nat → ℂ) : List ℂ :=
  let t1 := z 1 + z 10
  let t2 := z 2 + z 9
  let t3 := z 3 + z 8
  let t4 := z 4 + z 7
  let t5 := z 5 + z 6
  let t6 := z 1 - z 10
  let t7 := z 2 - z 9
  let t8 := z 3 - z 8
  let t9 := z 4 - z 7
  let t10 := z 5 - z 6
  let t11 := z 0 - (1/2) * t5
  let t12 := t1 - t5
  let t13 := t2 - t5
  let t14 := t3 - t5
  let t15 := t4 - t5
  let y1 := t11 + c1 * t12 + c2 * t13 + c3 * t14 + c4 * t15
  let y2 := t11 + c2 * t12 + c4 * t13 + c5 * t14 + c3 * t15
  let y3 := t11 + c3 * t12 + c5 * t13 + c2 * t14 + c1 * t15
  let y4 := t11 + c4 * t12 + c3 * t13 + c1 * t14 + c5 * t15
  let y5 := t11 + c5 * t12 + c1 * t13 + c4 * t14 + c2 * t15
  let y6 := c10 * t6 - c6 * t7 + c9 * t8 - c7 * t9 + c8 * t10
  let y7 := c9 * t6 - c8 * t7 + c6 * t8 + c10 * t9 - c7 * t10
  let y8 := c8 * t6 - c10 * t7 - c7 * t8 + c6 * t9 + c9 * t10
  let y9 := c7 * t6 + c9 * t7 - c10 * t8 - c8 * t9 - c6 * t10
  let y10 := c6 * t6 + c7 * t7 + c8 * t8 + c9 * t9 + c10 * t10
  [z 0 + t1 + t2 + t3 + t4 + t5, y1 + I * y10, y2 + I * y9, y3 + I * y8, y4 + I * y7, y5 + I * y6, y5 - I * y6,
   y4 - I * y7, y3 - I * y8, y2 - I * y9, y1 - I * y10]

/-- The choice of constants (pfafft.c:579-777). -/
def kern11 (mu : Nat) : (Nat → ℂ) → List ℂ :=
  if mu = 1 then body11 P841 P415 (-P142) (-P654) (-P959) P540 P909 P989 P755 P281
  else if mu = 2 then body11 P415 (-P654) (-P959) (-P142) P841 P909 P755 (-P281) (-P989) (-P540)
  else if mu = 3 then body11 (-P142) (-P959) P415 P841 (-P654) P989 (-P281) (-P909) P540 P755
  else if mu = 4 then body11 (-P654) (-P142) P841 (-P959) P415 P755 (-P989) P540 P281 (-P909)
  else if mu = 5 then body11 (-P959) P841 (-P654) P415 (-P142) P281 (-P540) P755 (-P909) P989
  else if mu = 6 then body11 (-P959) P841 (-P654) P415 (-P142) (-P281) P540 (-P755) P909 (-P989)
  else if mu = 7 then body11 (-P654) (-P142) P841 (-P959) P415 (-P755) P989 (-P540) (-P281) P909
  else if mu = 8 then body11 (-P142) (-P959) P415 P841 (-P654) (-P989) P281 P909 (-P540) (-P755)
  else if mu = 9 then body11 P415 (-P654) (-P959) (-P142) P841 (-P909) (-P755) P281 P989 P540
  else body11 P841 P415 (-P142) (-P654) (-P959) (-P540) (-P909) (-P989) (-P755) (-P281)

/-- Factor 13 (pfafft.c:785-1045; the same at 2219-2507). -/
def body13 (c1 c2 c3 c4 c5 c6 c7 c8 c9 c10 c11 c12 : ℂ) (z : Nat → ℂ) : List ℂ :=
  let t1 := z 1 + z 12
  let t2 := z 2 + z 11
  let t3 := z 3 + z 10
  let t4 := z 4 + z 9
  let t5 := z 5 + z 8
  let t6 := z 6 + z 7
  let t7 := z 1 - z 12
  let t8 := z 2 - z 11
  let t9 := z 3 - z 10
  let t10 := z 4 - z 9
  let t11 := z 5 - z 8
  let t12 := z 6 - z 7
  let t13 := z 0 - (1/2) * t6
  let t14 := t1 - t6
  let t15 := t2 - t6
  let t16 := t3 - t6
  let t17 := t4 - t6
  let t18 := t5 - t6
  let y1 := t13 + c1 * t14 + c2 * t15 + c3 * t16 + c4 * t17 + c5 * t18
  let y2 := t13 + c2 * t14 + c4 * t15 + c6 * t16 + c5 * t17 + c3 * t18
  let y3 := t13 + c3 * t14 + c6 * t15 + c4 * t16 + c1 * t17 + c2 * t18
  let y4 := t13 + c4 * t14 + c5 * t15 + c1 * t16 + c3 * t17 + c6 * t18
  let y5 := t13 + c5 * t14 + c3 * t15 + c2 * t16 + c6 * t17 + c1 * t18
  let y6 := t13 + c6 * t14 + c1 * t15 + c5 * t16 + c2 * t17 + c4 * t18
  let y7 := c12 * t7 - c7 * t8 + c11 * t9 - c8 * t10 + c10 * t11 - c9 * t12
  let y8 := c11 * t7 - c9 * t8 + c8 * t9 - c12 * t10 - c7 * t11 + c10 * t12
  let y9 := c10 * t7 - c11 * t8 - c7 * t9 + c9 * t10 - c12 * t11 - c8 * t12
  let y10 := c9 * t7 + c12 * t8 - c10 * t9 - c7 * t10 + c8 * t11 + c11 * t12
  let y11 := c8 * t7 + c10 * t8 + c12 * t9 - c11 * t10 - c9 * t11 - c7 * t12
  let y12 := c7 * t7 + c8 * t8 + c9 * t9 + c10 * t10 + c11 * t11 + c12 * t12
  [z 0 + t1 + t2 + t3 + t4 + t5 + t6, y1 + I * y12, y2 + I * y11, y3 + I * y10, y4 + I * y9, y5 + I * y8, y6 + I * y7,
   y6 - I * y7, y5 - I * y8, y4 - I * y9, y3 - I * y10, y2 - I * y11, y1 - I * y12]

/-- The choice of constants (pfafft.c:785-1045). -/
def kern13 (mu : Nat) : (Nat → ℂ) → List ℂ :=
  if mu = 1 then body13 P885 P568 P120 (-P354) (-P748) (-P970) P464 P822 P992 P935 P663 P239
  else if mu = 2 then body13 P568 (-P354) (-P970) (-P748) P120 P885 P822 P935 P239 (-P663) (-P992) (-P464)
  else if mu = 3 then body13 P120 (-P970) (-P354) P885 P568 (-P748) P992 P239 (-P935) (-P464) P822 P663
  else if mu = 4 then body13 (-P354) (-P748) P885 P120 (-P970) P568 P935 (-P663) (-P464) P992 (-P239) (-P822)
  else if mu = 5 then body13 (-P748) P120 P568 (-P970) P885 (-P354) P663 (-P992) P822 (-P239) (-P464) P935
  else if mu = 6 then body13 (-P970) P885 (-P748) P568 (-P354) P120 P239 (-P464) P663 (-P822) P935 (-P992)
  else if mu = 7 then body13 (-P970) P885 (-P748) P568 (-P354) P120 (-P239) P464 (-P663) P822 (-P935) P992
  else if mu = 8 then body13 (-P748) P120 P568 (-P970) P885 (-P354) (-P663) P992 (-P822) P239 P464 (-P935)
  else if mu = 9 then body13 (-P354) (-P748) P885 P120 (-P970) P568 (-P935) P663 P464 (-P992) P239 P822
  else if mu = 10 then body13 P120 (-P970) (-P354) P885 P568 (-P748) (-P992) (-P239) P935 P464 (-P822) (-P663)
  else if mu = 11 then body13 P568 (-P354) (-P970) (-P748) P120 P885 (-P822) (-P935) (-P239) P663 P992 P464
  else body13 P885 P568 P120 (-P354) (-P748) (-P970) (-P464) (-P822) (-P992) (-P935) (-P663) (-P239)

/-- Factor 16 (pfafft.c:1055-1263; the same at 2517-2759). -/
def body16 (c1 c2 c3 c4 : ℂ) (z : Nat → ℂ) : List ℂ :=
  let c5 := c1 * c4
  let c6 := c1 * c3
  let c7 := c1 * c2
  let t1 := z 0 + z 8
  let t2 := z 4 + z 12
  let t3 := z 0 - z 8
  let t4 := c1 * (z 4 - z 12)
  let t5 := t1 + t2
  let t6 := t1 - t2
  let t7 := z 1 + z 9
  let t8 := z 5 + z 13
  let t9 := z 1 - z 9
  let t10 := z 5 - z 13
  let t11 := t7 + t8
  let t12 := t7 - t8
  let t13 := z 2 + z 10
  let t14 := z 6 + z 14
  let t15 := z 2 - z 10
  let t16 := z 6 - z 14
  let t17 := t13 + t14
  let t18 := c4 * (t15 - t16)
  let t19 := c5 * (t15 + t16)
  let t20 := c1 * (t13 - t14)
  let t21 := z 3 + z 11
  let t22 := z 7 + z 15
  let t23 := z 3 - z 11
  let t24 := z 7 - z 15
  let t25 := t21 + t22
  let t26 := t21 - t22
  let t27 := t9 + t24
  let t28 := t10 + t23
  let t29 := t9 - t24
  let t30 := t10 - t23
  let t31 := t5 + t17
  let t32 := t11 + t25
  let t33 := t3 + t18
  let t34 := c2 * t29 - c6 * t30
  let t35 := t3 - t18
  let t36 := c7 * t27 - c3 * t28
  let t37 := t4 + t19
  let t38 := c3 * t27 + c7 * t28
  let t39 := t4 - t19
  let t40 := c6 * t29 + c2 * t30
  let t41 := c4 * (t12 - t26)
  let t42 := c5 * (t12 + t26)
  let y1 := t33 + t34
  let y2 := t6 + t41
  let y3 := t35 + t40
  let y4 := t5 - t17
  let y5 := t35 - t40
  let y6 := t6 - t41
  let y7 := t33 - t34
  let y9 := t38 - t37
  let y10 := t42 - t20
  let y11 := t36 + t39
  let y12 := c1 * (t11 - t25)
  let y13 := t36 - t39
  let y14 := t42 + t20
  let y15 := t38 + t37
  [t31 + t32, y1 + I * y15, y2 + I * y14, y3 + I * y13, y4 + I * y12, y5 + I * y11, y6 + I * y10, y7 + I * y9,
   t31 - t32, y7 - I * y9, y6 - I * y10, y5 - I * y11, y4 - I * y12, y3 - I * y13, y2 - I * y14, y1 - I * y15]

/-- The choice of constants (pfafft.c:1055-1263). -/
def kern16 (mu : Nat) : (Nat → ℂ) → List ℂ :=
  if mu = 1 then body16 1 P923 P382 P707
  else if mu = 3 then body16 (-1) P382 P923 (-P707)
  else if mu = 5 then body16 1 (-P382) P923 (-P707)
  else if mu = 7 then body16 (-1) (-P923) P382 P707
  else if mu = 9 then body16 1 (-P923) (-P382) P707
  else if mu = 11 then body16 (-1) (-P382) (-P923) (-P707)
  else if mu = 13 then body16 1 P382 (-P923) (-P707)
  else body16 (-1) P923 (-P382) P707

end
end Verif.Fft.Pfa
