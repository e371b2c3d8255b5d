import Verif.Model.Network

/-!
# The manager of bundles and networks: `MTLN` (mtln.py)
-/

namespace Mtln

variable {p : ℕ}

/-- The attributes of an `MTLN` object (mtln.py:10-20); the attribute `du` is never read. -/
structure MTLN (p : ℕ) where
  bundles : List (AnyBundle p) := []
  networks : List NetworkD := []
  dt : ℝ := 10 ^ 10
  time : ℝ := 0

open Classical in
/-- mtln.py:23-30 `MTLN.add_bundle(bundle)`. -/
noncomputable def MTLN.addBundle (M : MTLN p) (b : AnyBundle p) : Py (MTLN p) := do
  pyAssert (b.2.name ∉ M.bundles.map fun b => b.2.name)
  .ok { M with bundles := M.bundles ++ [b], dt := if b.2.dt < M.dt then b.2.dt else M.dt }

/-- mtln.py:32-34 `MTLN.add_network(nw)`.  In Python the network object itself is changed; the model returns the
changed network as the last one of the manager. -/
noncomputable def MTLN.addNetwork (M : MTLN p) (nw : NetworkD) : Py (MTLN p) := do
  let nw' ← nw.updateIndexNumbers M.bundles
  .ok { M with networks := M.networks ++ [nw'] }

/-- mtln.py:36-38 `MTLN.add_networks(nw)`: the row numbers of the nodes are not updated. -/
def MTLN.addNetworks (M : MTLN p) (nws : List NetworkD) : MTLN p := { M with networks := M.networks ++ nws }

/-- mtln.py:10-20 `MTLN.__init__(bundles, networks)`. -/
noncomputable def MTLN.new (bundles : List (AnyBundle p)) (networks : List NetworkD) : Py (MTLN p) := do
  let M ← bundles.foldlM MTLN.addBundle ({} : MTLN p)
  networks.foldlM MTLN.addNetwork M

/-- A method of the bundles applied to a bundle of some size. -/
def onBundle (f : ∀ {n}, MTLD n p → Py (MTLD n p)) (b : AnyBundle p) : Py (AnyBundle p) := do
  let b' ← f b.2
  .ok ⟨b.1, b'⟩

/-- mtln.py:87-91 `MTLN.advance_networks_voltage`, for a list of networks. -/
noncomputable def netsVoltage (time dt : ℝ) :
    List NetworkD → List (AnyBundle p) → Py (List NetworkD × List (AnyBundle p))
  | [], bs => .ok ([], bs)
  | nw :: rest, bs => do
    let nw' ← nw.advanceVoltage time dt
    let bs' ← nw'.updateVoltages bs
    let r ← netsVoltage time dt rest bs'
    .ok (nw' :: r.1, r.2)

/-- The update of the probes of one bundle (mtln.py:49-50). -/
noncomputable def MTLD.updateProbes (time : ℝ) {n : ℕ} (b : MTLD n p) : Py (MTLD n p) := do
  let ps ← Mtln.updateProbes b.m time b.v b.i b.probes
  .ok { b with probes := ps }

/-- mtln.py:106-112 `MTLN.step`. -/
noncomputable def MTLN.step (M : MTLN p) : Py (MTLN p) := do
  let b1 ← mapPy (onBundle (MTLD.stepVoltage M.time M.dt)) M.bundles
  let r ← netsVoltage M.time M.dt M.networks b1
  let b2 ← mapPy (onBundle (MTLD.stepCurrent M.time M.dt)) r.2
  let nws ← mapPy (NetworkD.updateCurrents b2) r.1
  let b3 ← mapPy (onBundle (MTLD.updateProbes (M.time + M.dt))) b2
  .ok { M with bundles := b3, networks := nws, time := M.time + M.dt }

/-- The preparation of one bundle in `run_until` (mtln.py:75-78). -/
noncomputable def MTLD.start (frames : ℕ) {n : ℕ} (b : MTLD n p) : Py (MTLD n p) := do
  let b ← b.updateLrTerms
  let b ← b.updateCgTerms
  .ok { b with probes := b.probes.map (Probe.resizeFrames frames) }

/-- `bundle.dt = dt`. -/
def MTLD.withDt (dt : ℝ) {n : ℕ} (b : MTLD n p) : MTLD n p := { b with dt := dt }

open Classical in
/-- mtln.py:66-69. -/
noncomputable def MTLN.overrideDt (dt : ℝ) (M : MTLN p) : MTLN p :=
  if dt ≠ 0 then { M with dt := dt, bundles := M.bundles.map fun b => ⟨b.1, b.2.withDt dt⟩ } else M

/-- The part of `run_until` before the loop (mtln.py:66-78): the number of steps and the prepared manager. -/
noncomputable def MTLN.start (finalTime dt : ℝ) (M : MTLN p) : Py (ℕ × MTLN p) := do
  let M := M.overrideDt dt
  let nws ← mapPy (NetworkD.computeVTerms M.dt) M.networks
  let k ← timeRangeLen finalTime M.dt
  let bs ← mapPy (onBundle (MTLD.start k)) M.bundles
  .ok (k, { M with networks := nws, bundles := bs })

/-- mtln.py:64-81 `MTLN.run_until(finalTime, dt)`. -/
noncomputable def MTLN.runUntil (finalTime dt : ℝ) (M : MTLN p) : Py (MTLN p) := do
  let r ← M.start finalTime dt
  iterPy MTLN.step r.1 r.2

end Mtln
