import Verif.Model.Names

/-!
# Renaming fields and arguments
-/

namespace Deku

/-- What the names `ρ n` stand for, under the names `n`. -/
def Names.rename (ρ : Name → Name) (sc : Names) : Names := { get := fun n => sc.get (ρ n), off := sc.off }

def NAttrs.rename (ρ : Name → Name) (a : NAttrs) : NAttrs :=
  { a with seek := a.seek.map fun f sc => f (sc.rename ρ), padBefore := a.padBefore.map fun f sc => f (sc.rename ρ), padAfter := a.padAfter.map fun f sc => f (sc.rename ρ), cond := a.cond.map fun f sc => f (sc.rename ρ), default := fun sc => a.default (sc.rename ρ), map := fun sc => a.map (sc.rename ρ), unmap := fun sc => a.unmap (sc.rename ρ), assert := fun sc => a.assert (sc.rename ρ), assertEq := fun sc => a.assertEq (sc.rename ρ) }

def NLimit.rename (ρ : Name → Name) : NLimit → NLimit
  | .count n => .count fun sc => n (sc.rename ρ)
  | .until p => .until fun sc => p (sc.rename ρ)
  | .bytes n => .bytes fun sc => n (sc.rename ρ)
  | .bits n => .bits fun sc => n (sc.rename ρ)
  | .end => .end

def NId.rename (ρ : Name → Name) : NId → NId
  | .ctx e => .ctx fun sc => e (sc.rename ρ)
  | .typed size c => .typed size fun sc => c (sc.rename ρ)

def NVAttrs.rename (ρ : Name → Name) (a : NVAttrs) : NVAttrs := { a with pat := fun sc => a.pat (sc.rename ρ) }

mutual

/-- The definition with `ρ n` for every name `n`, of fields and arguments and wherever they are mentioned. -/
def NTy.rename (ρ : Name → Name) : NTy → NTy
  | .prim size c => .prim size fun sc => c (sc.rename ρ)
  | .option t => .option (t.rename ρ)
  | .array n t => .array n (t.rename ρ)
  | .pair a b => .pair (a.rename ρ) (b.rename ρ)
  | .vec size l t => .vec size (l.rename ρ) (t.rename ρ)
  | .bytes n ctx => .bytes (fun sc => n (sc.rename ρ)) fun sc => ctx (sc.rename ρ)
  | .struct args seek magic fs => .struct (args.map fun p => (ρ p.1, fun sc => p.2 (sc.rename ρ)))
      (seek.map fun f sc => f (sc.rename ρ)) magic (fs.rename ρ)
  | .enum args magic id store vs => .enum (args.map fun p => (ρ p.1, fun sc => p.2 (sc.rename ρ))) magic (id.rename ρ)
      (fun i sc => store i (sc.rename ρ)) (vs.rename ρ)

def NFields.rename (ρ : Name → Name) : NFields → NFields
  | .nil => .nil
  | .cons n a t rest => .cons (ρ n) (a.rename ρ) (t.rename ρ) (rest.rename ρ)
  | .temp n a t value rest => .temp (ρ n) (a.rename ρ) (t.rename ρ) value (rest.rename ρ)

def NVariants.rename (ρ : Name → Name) : NVariants → NVariants
  | .nil => .nil
  | .cons a fs rest => .cons (a.rename ρ) (fs.rename ρ) (rest.rename ρ)

end

end Deku
