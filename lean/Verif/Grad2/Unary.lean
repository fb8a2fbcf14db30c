import Verif.Elem.Unary
/-
The Python backward functions (python/src/nnabla/backward_function/*.py) of the elementwise functions of one input. `nn.grad`
calls them to extend the graph by nodes that compute the gradient; a later `backward` differentiates that graph again.
Simplifications: exact reals; one element (all functions used are elementwise, shapes agree); a Python graph is an expression
tree, so a node used twice occurs twice (the gradients of its uses are added, as C24/C25 state for shared nodes).
-/
namespace Verif.Grad2
open Verif.Elem Real

/-- Graph expressions that a backward function of one input can build from the gradient `dy`, the input `x` and the output `y` of
the function, by the operators and functions of nnabla. -/
inductive G
  | x | dy | y
  /-- F.constant. -/
  | const (c : ℝ)
  /-- an elementwise function, including the scalar operators -/
  | un (f : Unary) (a : G)
  | add (a b : G) | sub (a b : G) | mul (a b : G) | div (a b : G)
  /-- F.greater_scalar, F.greater_equal_scalar, F.less_scalar, F.less_equal_scalar, F.not_equal_scalar -/
  | gt (a : G) (c : ℝ) | ge (a : G) (c : ℝ) | lt (a : G) (c : ℝ) | le (a : G) (c : ℝ) | ne (a : G) (c : ℝ)
  /-- `no_grad` (utils.py:20-21): need_grad = False -/
  | noGrad (a : G)
  /-- F.where -/
  | wh (m a b : G)

/-! The Python operators (_arithmetic_ops.pyx:28-290, _variable.pyx:1172-1212). -/

/-- `-a`: F.mul_scalar(a, -1) (_arithmetic_ops.pyx:28-37). -/
def neg (a : G) : G := .un (.mulScalar (-1)) a
/-- `c * a`, `a * c`: F.mul_scalar (_arithmetic_ops.pyx:98-127). -/
def smul (c : ℝ) (a : G) : G := .un (.mulScalar c) a
/-- `c + a`, `a + c`: F.add_scalar (_arithmetic_ops.pyx:39-66). -/
def sadd (c : ℝ) (a : G) : G := .un (.addScalar c) a
/-- `a - c`: F.add_scalar(a, -c) (_arithmetic_ops.pyx:68-96). -/
def subS (a : G) (c : ℝ) : G := .un (.addScalar (-c)) a
/-- `c - a`: F.r_sub_scalar (_arithmetic_ops.pyx:68-96). -/
def rsub (c : ℝ) (a : G) : G := .un (.rSubScalar c) a
/-- `c / a`: F.r_div_scalar (_arithmetic_ops.pyx:129-159). -/
noncomputable def rdiv (c : ℝ) (a : G) : G := .un (.rDivScalar c) a
/-- `a ** c`: F.pow_scalar (_arithmetic_ops.pyx:193-229). -/
def powS (a : G) (c : ℝ) : G := .un (.powScalar c) a
/-- `c ** a`: F.r_pow_scalar (_arithmetic_ops.pyx:193-229). -/
def rpowS (c : ℝ) (a : G) : G := .un (.rPowScalar c) a

/-- The backward functions, one line per file of python/src/nnabla/backward_function. `none`: mish.py:43 raises
NotImplementedError. -/
noncomputable def bw : Unary → Option G
  | .abs => -- abs.py:39-45
    let m0 := G.ge .x 0; let m1 := rsub 1 m0
    some (.mul .dy (.noGrad (.sub m0 m1)))
  | .exp => some (.mul .dy .y)                                                -- exp.py:34-37
  | .log => some (.div .dy .x)                                                -- log.py:34-36
  | .sigmoid => some (.mul (.mul .dy .y) (rsub 1 .y))                         -- sigmoid.py:34-37
  | .tanh => some (.mul .dy (rsub 1 (powS .y 2)))                             -- tanh.py:34-37
  | .elu a => -- elu.py:39-45
    let m0 := G.gt .x 0; let m1 := rsub 1 m0
    some (.mul .dy (.add (.noGrad m0) (.mul (smul a (.un .exp .x)) (.noGrad m1))))
  | .softPlus b => some (.mul .dy (.un .sigmoid (smul b .x)))                 -- softplus.py:37-39
  | .gelu => -- gelu.py:38-47
    let v := smul √(2 / π) (.add .x (smul 0.044715 (powS .x 3)))
    let u := sadd 1 (.un .tanh v)
    let t1 := smul 0.5 u
    let t2 := G.mul (smul √(2 / π) (.mul (smul 0.5 .x) (rsub 1 (powS (.un .tanh v) 2)))) (sadd 1 (smul 0.134145 (powS .x 2)))
    some (.mul .dy (.add t1 t2))
  | .swish => -- swish.py:37-40
    let s0 := G.un .sigmoid .x
    some (.mul (.mul .dy s0) (sadd 1 (.mul .x (rsub 1 s0))))
  | .mish => none
  | .logSigmoid => some (.mul .dy (rsub 1 (.un .sigmoid .x)))                 -- log_sigmoid.py:37-39
  | .softSign => some (.mul .dy (rdiv 1 (powS (sadd 1 (.un .abs .x)) 2)))     -- softsign.py:37-39
  | .tanhShrink => some (.mul .dy (rsub 1 (rsub 1 (powS (.un .tanh .x) 2))))  -- tanh_shrink.py:37-40
  | .sinc => -- sinc.py:39-47
    some (.wh (.noGrad (.ne .x 0)) (.div (.mul .dy (.sub (.un .cos .x) (.div (.un .sin .x) .x))) .x) (.const 0))
  | .powScalar a => some (.mul (smul a .dy) (powS .x (a - 1)))                -- pow_scalar.py:35-37
  | .rDivScalar a => some (.div (smul a (neg .dy)) (powS .x 2))               -- r_div_scalar.py:34-36
  | .rPowScalar a => some (smul (Real.log a) (.mul .dy (rpowS a .x)))         -- r_pow_scalar.py:37-39
  | .rSubScalar _ => some (neg .dy)                                           -- r_sub_scalar.py:34-36
  | .mulScalar a => some (smul a .dy)                                         -- mul_scalar.py:34-36
  | .addScalar _ => some .dy                                                  -- add_scalar.py:34-36
  | .maximumScalar a => some (.mul .dy (.noGrad (.gt .x a)))                  -- maximum_scalar.py:39-43
  | .minimumScalar a => some (.mul .dy (.noGrad (.lt .x a)))                  -- minimum_scalar.py:39-43
  | .hardSigmoid => some (.mul (smul 0.2 .dy) (.noGrad (.mul (.gt .x (-2.5)) (.lt .x 2.5))))  -- hard_sigmoid.py:39-45
  | .hardTanh => some (.mul .dy (.noGrad (.mul (.ge .x (-1)) (.le .x 1))))    -- hard_tanh.py:39-45
  | .relu6 => some (.mul .dy (.noGrad (.mul (.gt .x 0) (.lt .x 6))))          -- relu6.py:39-45
  | .sin => some (.mul .dy (.un .cos .x))                                     -- sin.py:37-39
  | .cos => some (.mul (neg .dy) (.un .sin .x))                               -- cos.py:37-39
  | .tan => some (.mul .dy (powS (.un .cos .x) (-2)))                         -- tan.py:37-39
  | .sinh => some (.mul .dy (.un .cosh .x))                                   -- sinh.py:37-39
  | .cosh => some (.mul .dy (.un .sinh .x))                                   -- cosh.py:37-39
  | .asin => some (.mul .dy (powS (rsub 1 (powS .x 2)) (-1 / 2)))             -- asin.py:34-36
  | .acos => some (.mul (neg .dy) (powS (rsub 1 (powS .x 2)) (-1 / 2)))       -- acos.py:34-36
  | .atan => some (.div .dy (sadd 1 (powS .x 2)))                             -- atan.py:34-36
  | .asinh => some (.mul .dy (powS (sadd 1 (powS .x 2)) (-1 / 2)))            -- asinh.py:34-36
  | .acosh => some (.mul .dy (powS (subS (powS .x 2) 1) (-1 / 2)))            -- acosh.py:34-36
  | .atanh => some (.div .dy (rsub 1 (powS .x 2)))                            -- atanh.py:34-36
  | .erf => some (.mul (smul (2 / √π) (.un .exp (neg (powS .x 2)))) .dy)      -- erf.py:44-46
  | .relu => some (.mul .dy (.noGrad (.gt .y 0)))                             -- relu.py:39-44
  | .leakyRelu α => -- leaky_relu.py:39-53
    open Classical in
    let x0 := if α ≥ 0 then G.y else .x
    let m0 := G.gt x0 0; let m1 := rsub 1 m0
    some (.mul .dy (.add (.noGrad m0) (smul α (.noGrad m1))))
  | .selu s α => -- selu.py:39-45
    let m0 := G.gt .x 0; let m1 := rsub 1 m0
    some (.mul (smul s .dy) (.add (.noGrad m0) (.mul (smul α (.un .exp .x)) (.noGrad m1))))

open Classical in
/-- A condition as 1 or 0. -/
noncomputable def ind (p : Prop) : ℝ := if p then 1 else 0

open Classical in
/-- One of two values by a condition. -/
noncomputable def sel (p : Prop) (a b : ℝ) : ℝ := if p then a else b

/-- Forward execution of the graph, for `y = F x`. Comparisons give 1 or 0 (greater_scalar.hpp and the like). -/
noncomputable def G.eval (F : Unary) (t dy : ℝ) : G → ℝ
  | .x => t
  | .dy => dy
  | .y => F.forward t
  | .const c => c
  | .un f a => f.forward (a.eval F t dy)
  | .add a b => a.eval F t dy + b.eval F t dy
  | .sub a b => a.eval F t dy - b.eval F t dy
  | .mul a b => a.eval F t dy * b.eval F t dy
  | .div a b => a.eval F t dy / b.eval F t dy
  | .gt a c => ind (a.eval F t dy > c)
  | .ge a c => ind (a.eval F t dy ≥ c)
  | .lt a c => ind (a.eval F t dy < c)
  | .le a c => ind (a.eval F t dy ≤ c)
  | .ne a c => ind (a.eval F t dy ≠ c)
  | .noGrad a => a.eval F t dy
  | .wh m a b => sel (m.eval F t dy ≠ 0) (a.eval F t dy) (b.eval F t dy)

/-- Backward execution: what arrives in `x.grad` and in `dy.grad` when the node gets the gradient `g`. Each node uses the C++
gradient formula of its function (add2.cpp:50-77, sub2.hpp:41, mul2.hpp:42, div2.hpp:44-46; where.cpp:58-90: the branch not taken gets
0; comparisons propagate nothing; `y` runs the backward of the function itself). -/
noncomputable def G.rev (F : Unary) (t dy : ℝ) : G → ℝ → ℝ × ℝ
  | .x, g => (g, 0)
  | .dy, g => (0, g)
  | .y, g => (F.grad g t (F.forward t), 0)
  | .const _, _ => (0, 0)
  | .un f a, g => a.rev F t dy (f.grad g (a.eval F t dy) (f.forward (a.eval F t dy)))
  | .add a b, g => a.rev F t dy g + b.rev F t dy g
  | .sub a b, g => a.rev F t dy g + b.rev F t dy (-g)
  | .mul a b, g => a.rev F t dy (g * b.eval F t dy) + b.rev F t dy (g * a.eval F t dy)
  | .div a b, g => a.rev F t dy (g / b.eval F t dy) + b.rev F t dy (-g * a.eval F t dy / (b.eval F t dy * b.eval F t dy))
  | .gt _ _, _ => (0, 0)
  | .ge _ _, _ => (0, 0)
  | .lt _ _, _ => (0, 0)
  | .le _ _, _ => (0, 0)
  | .ne _ _, _ => (0, 0)
  | .noGrad _, _ => (0, 0)
  | .wh m a b, g => a.rev F t dy (sel (m.eval F t dy ≠ 0) g 0) + b.rev F t dy (sel (m.eval F t dy ≠ 0) 0 g)

end Verif.Grad2
