import Verif.Model.KE

/-!
# Specification: the number of parameters of an expression
-/

namespace GPyABCD
namespace KE

/-- Parameters besides the variance. -/
def shapePars (cfg : Cfg) : Base → Nat
  | .WN => 0
  | .C => 0
  | .LIN => if cfg.linOffset then 1 else 0
  | .SE => 1
  | .PER => 2
  | .S | .Sr => if cfg.fixSlope then 1 else 2
  | .SI | .SIr => if cfg.fixSlope then 2 else 3

/-- Of a list of base kernels in a sum, where every one has its variance, or in a product, where they have one together. -/
def basePars' (cfg : Cfg) : Op → List Base → Nat
  | .sum, bs => (bs.map (fun b => 1 + shapePars cfg b)).sum
  | .prod, bs => (if bs.isEmpty then 0 else 1) + (bs.map (shapePars cfg)).sum

/-- Of a change operator itself. -/
def ownPars (cfg : Cfg) : CC → Nat
  | .CP => if cfg.fixSlope then 1 else 2
  | .CW => if cfg.fixSlope then 2 else 3

mutual
/-- Of an expression. -/
def nPars (cfg : Cfg) : KE → Nat
  | base b => 1 + shapePars cfg b
  | comm op b cs => basePars' cfg op b.elements + nParsL cfg cs
  | change c l r => ownPars cfg c + nPars cfg l + nPars cfg r
/-- Over a list. -/
def nParsL (cfg : Cfg) : List KE → Nat
  | [] => 0
  | k :: ks => nPars cfg k + nParsL cfg ks
end

end KE
end GPyABCD
