import Verif.Fdtd

/-!
# Model of the arrays behind an FDTD state: `step` and `run_cw_port` with aliasing

In NumPy mode `e += ...`, `e[region] += ...`, `h -= ...` (fdtd.py:129-172) write into the array object the
caller passed; in JAX mode they bind a new array. The lists `psi_e`, `psi_h` are updated in place
(`psi_e[pml_idx], p = ...`, fdtd.py:123, 152) in both modes. Names are references: `_, h_before, _, _ =
state` (fdtd.py:275) copies a reference.
-/

namespace Simphox

variable {s : Fin 3 → ℕ}

/-- The array objects and the two kinds of list objects, by address; `next` is the next unused array
address. -/
structure FHeap (s : Fin 3 → ℕ) (np : ℕ) where
  arr : ℕ → VField s
  lst : ℕ → Fin np → Psi s
  next : ℕ

/-- A state as the caller holds it: references to `e`, `h`, `psi_e`, `psi_h`. -/
structure SRef where
  e : ℕ
  h : ℕ
  pe : ℕ
  ph : ℕ

/-- The values a state refers to. -/
def FHeap.read {np : ℕ} (H : FHeap s np) (r : SRef) : FState s np := (H.arr r.e, H.arr r.h, H.lst r.pe, H.lst r.ph)

/-- A state whose four references are allocated and do not alias each other. -/
def SRef.Ok {np : ℕ} (r : SRef) (H : FHeap s np) : Prop :=
  r.e ≠ r.h ∧ r.e < H.next ∧ r.h < H.next ∧ r.pe ≠ r.ph

/-- Storing a new field value: into the same object with NumPy, into a new object with JAX. Returns the
reference the local name is bound to afterwards. -/
def FHeap.store {np : ℕ} (H : FHeap s np) (jax : Bool) (addr : ℕ) (v : VField s) : FHeap s np × ℕ :=
  if jax then ({ H with arr := Function.update H.arr H.next v, next := H.next + 1 }, H.next)
  else ({ H with arr := Function.update H.arr addr v }, addr)

variable [∀ a, NeZero (s a)]

/-- `FDTD.step` (fdtd.py:228-230) on the heap: `_step_e`, then `_step_h`. -/
noncomputable def Fdtd.stepHeap (F : Fdtd s) (jax : Bool) (H : FHeap s F.npml) (r : SRef)
    (sources : List (Source s)) : FHeap s F.npml × SRef :=
  let v := F.stepE jax (H.read r) sources
  let p := ({ H with lst := Function.update H.lst r.pe v.2.2.1 } : FHeap s F.npml).store jax r.e v.1
  let H1 := p.1
  let r1 : SRef := { r with e := p.2 }
  let w := F.stepH jax (H1.read r1) sources
  let q := ({ H1 with lst := Function.update H1.lst r1.ph w.2.2.2 } : FHeap s F.npml).store jax r1.h w.2.1
  (q.1, { r1 with h := q.2 })

/-- The loop of `run_cw_port` (fdtd.py:265-280): the sources of step `k` are `srcs k` (the excitation
times `exp(1j * k * dt * k0)`). Returns the heap, the state, and the fields handed to `measure_fn`, in
order. -/
noncomputable def Fdtd.runCw (F : Fdtd s) (jax : Bool) (srcs : ℕ → List (Source s)) (H : FHeap s F.npml) (r : SRef) :
    ℕ → FHeap s F.npml × SRef × List (VField s × VField s)
  | 0 => (H, r, [(H.arr r.e, H.arr r.h)])
  | n + 1 =>
    let (H0, r0, flux) := F.runCw jax srcs H r n
    let hBefore := r0.h
    let (H1, r1) := F.stepHeap jax H0 r0 (srcs n)
    (H1, r1, flux ++ [(H1.arr r1.e, fun c i => (H1.arr hBefore c i + H1.arr r1.h c i) / 2)])

end Simphox
