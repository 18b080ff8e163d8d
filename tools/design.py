#!/usr/bin/env python3
"""Regenerates the per-property table of DESIGN.md (everything below the marker) from
properties.jsonl, MANIFEST.json, the Lean sources and PLAN."""
import json, re, glob, os, sys
sys.path.insert(0, os.path.dirname(__file__))
R = os.path.join(os.path.dirname(__file__), "..")
PLAN = {
"C01": ("`_difference_list`, `_change_config`, `change_config` of each class over `NDArr`", "induction over the slots of the configuration; specification = explicit sum over all multi-indices"),
"C02": ("same", "composition of single-slot moves, g·g⁻¹ = 1"),
"C03": ("same, errors as values", "case analysis on every branch, success iff"),
"C04": ("`tensor_product`, incl. the Python expression `(i or j) is None`", "evaluation of the loops; counterexample i=0/j=None"),
"C05": ("`lorentz_transform`", "induction over slots, associativity of matrix product"),
"C06": ("same", "iff-characterisation by polarisation; counterexample boost"),
"C07": ("every tensor constructor", "case analysis; all-inputs iff"),
"C08": ("`subs` + constructors", "unfold; refutation"),
"C09": ("heap of metric objects with the `_invmetric` slot, all call histories", "invariant over histories, refinement to the pure inverse"),
"C10": ("`lower_config`", "case analysis on configurations"),
"C11": ("nested Python lists, `_flatten_list`, dense sympy arrays", "structural induction"),
"C12": ("expression AST, `free_symbols`, sorting", "induction; permutation + sortedness lemmas"),
"C13": ("the loop of `ChristoffelSymbols.from_metric`", "loop invariant over the flattened counter"),
"C14": ("same", "linear algebra over derivations"),
"C15": ("loop of `RiemannCurvatureTensor`", "loop invariant; commuting derivations"),
"C16": ("same + `change_config`", "matrix calculus of the connection form"),
"C17": ("`RicciTensor`, `RicciScalar` and all their constructors", "contraction lemmas, transport along `change_config`"),
"C18": ("`EinsteinTensor`", "second Bianchi identity proved from the definitions, then contracted"),
"C19": ("`WeylTensor`", "trace identities for every dimension; dims=3 by enumerating index patterns"),
"C20": ("`SchoutenTensor`", "trace identities"),
"C21": ("`StressEnergyMomentumTensor`", "from C18; sign of Λ refuted"),
"C22": ("all `from_metric` with a 'uu' metric", "inverse of the inverse"),
"C23": ("`change_config` of every class", "case analysis"),
"C24": ("`int(t/d**k) % d` with any correctly rounded division", "monotonicity of rounding"),
"C25": ("`DualNumber` arithmetic over ℝ", "ring / field identities"),
"C26": ("program AST evaluated on duals", "structural induction with `HasDerivAt`"),
"C27": ("`__truediv__`, `__rtruediv__`, `__rsub__`", "case analysis on the float branches"),
"C28": ("`_jacobian_g`", "symmetric filling loop + C26"),
"C29": ("`_flow_mixed`", "trigonometric identities"),
"C30": ("`_Z`, `_ord_2..8`, `step`", "composition algebra, palindromic words"),
"C31": ("same", "each sub-flow symplectic (Fréchet derivative), closure under composition"),
"C32": ("same", "invariant, induction over steps"),
"C33": ("`_Z` weights", "real cube roots; inequality for orders 6, 8"),
"C34": ("`calculate_trajectory` / `Geodesic`", "induction over steps, totality from smoothness"),
"C35": ("`RK4naive.step`", "induction; refutation (direction is 0)"),
"C36": ("`RK4naive.step`", "ring identities"),
"C37": ("`_P`", "quadratic formula; sign of the root"),
"C38": ("`_sch`, `_kerr`, `_kerrnewman`", "field identities"),
"C39": ("`Geodesic.__init__`, `Timelike`, `Nulllike`", "case analysis"),
"C40": ("`_calculate_trajectory` Cartesian branch", "trigonometric identities, induction over rows"),
"C41": ("`alpha`", "case analysis"),
"C42": ("`Schwarzschild._ch_sym`, `_g_cov`", "`HasDerivAt` of the metric entries, table of 64 entries"),
"C43": ("`Kerr._dg_dx`", "`HasDerivAt`; exact error term"),
"C44": ("`Kerr._christoffels`", "table of 64 entries; error propagated exactly"),
"C45": ("`_f_vec`", "sum over all pairs; conservation by differentiating g(v,v)"),
"C46": ("`KerrNewman._g_cov`", "comparison with the line element; iff Q=0"),
"C47": ("`em_potential_*`, `em_tensor_*`", "`HasDerivAt`; iff"),
"C48": ("`singularities`", "quadratic formula, ordering inequalities"),
"C49": ("`coordinate_system` checks", "case analysis on all methods × systems"),
"C50": ("`v0`", "quadratic formula, sign"),
"C51": ("`cartesian_to_spherical_fast` etc., `arctan2`, `arccos`", "Complex.arg lemmas"),
"C52": ("`cartesian_to_bl_fast` etc.", "quadratic equation of the BL radius"),
"C53": ("velocity parts of the conversions", "`HasDerivAt` along every curve"),
"C54": ("`lorentz_factor` and conversions", "real inequalities"),
"C55": ("`scalar_factor*`", "`HasDerivAt` of power and exp"),
"C56": ("`SchwarzschildEmbedding.gradient/radial_coord`", "`HasDerivAt`, iff"),
"C57": ("`Shadow` critical impact parameter", "cubic inequality"),
"C58": ("escape loop of `plotting/fractal.py`", "fuel-free while semantics; escape lemma for z²+c"),
"C59": ("`_draw_bh`, ergosphere drawing", "comparison with the C48 surfaces"),
"C60": ("`TransformationMatrix.inv` with cache", "refutation; heap"),
"C61": ("predefined metrics over a differential field with named functions", "field identities"),
"C62": ("the curvature model evaluated on the model of `Schwarzschild()`", "diagonal-metric Ricci formula"),
"C63": ("`Minkowski*`", "same"),
"C64": ("`AntiDeSitter*`, `DeSitter`", "same; refutation"),
"C65": ("`JanisNewmanWinicour`", "field identities; refutation"),
"C66": ("`find`, `dir` of the predefined module", "list lemmas"),
"C67": ("warning branch of `step`", "induction over steps"),
"C68": ("`KerrNewman._dg_dx`, `_christoffels`", "`HasDerivAt`, table"),
"C69": ("Kerr vs KerrNewman", "table comparison, iff"),
"C70": ("`KerrNewman._f_vec`", "antisymmetry; counterexample"),
"C71": ("`BaseMetric.metric_covariant/contravariant`", "matrix inverse, iff on the determinant"),
"C72": ("unit handling of the constructors and of `units.primitive`", "unit = (dimension, positive factor); iff"),
"C73": ("`_g_cov` of Schwarzschild, Kerr", "bilinear form vs line element"),
"C74": ("`coordinates/conversion.py`, `utils.py` dispatch", "case analysis on optional arguments"),
"C75": ("coordinate objects with cached tuple and attributes", "state invariants; refutation after assignment"),
"C76": ("differential objects, `velocity`, `v_t`", "induction over histories"),
"C77": ("two `while` loops of `get_values`", "termination + closed form by induction; divergence proof"),
"C78": ("`get_values_surface`", "shape calculus of meshgrid; refutation"),
"C79": ("`to_*` methods of coordinate objects", "unfold + C51, C52"),
"C80": ("`Shadow._root_equation`", "iff with orbit equation"),
"C81": ("`Shadow` arrays", "list lemmas, positivity of the sampled integral"),
"C82": ("image loops of `fractal`", "loop invariant over pixels, z²+c symmetry"),
"C83": ("static / interactive plotters as figure state machines", "case analysis + frame property"),
"C84": ("`ShadowPlotter`", "list lemmas"),
"C85": ("symbolic vs numerical metrics", "evaluation homomorphism"),
"C86": ("every predefined metric", "signature via congruence (explicit frames)"),
"C87": ("`AlcubierreWarp`", "refutation"),
"C88": ("`get_constant`", "finite table lifted to all strings"),
"C89": ("`ReissnerNordstorm()`", "spherical Ricci formula"),
"C90": ("`BertottiKasner()`", "diagonal Ricci formula"),
"C91": ("`BarriolaVilekin()`", "same, iff"),
"C92": ("`Godel()`", "connection-form calculus of a stationary metric"),
"C93": ("`Ernst()`", "conformal diagonal metric"),
"C94": ("`Davidson()`", "power-law calculus in a differential field"),
"C95": ("`Kerr()`", "Ricci of the t-φ block metric in rational form"),
"C96": ("`KerrNewman()`", "same, with the charge; iff"),
"C97": ("`animate`, axis limits, frames", "list minimum/maximum lemmas; refutation of the last frame"),
"C98": ("`plot` of a `Geodesic`", "comparison with the Cartesian image; refutation"),
"C99": ("`RK45` wrapper over an abstract scipy base class `Lawful`", "induction over calls; refutation for RuntimeError"),
"C100": ("`Body`", "case analysis, well-foundedness of the parent chain; refutation after assignment"),
"C101": ("`CMetric()`", "diagonal Ricci formula, ODE separated in the differential field"),
"C102": ("`BesselGravitationalWave()`", "diagonal Ricci formula + Bessel equations"),
"C103": ("`JanisNewmanWinicour()`", "diagonal Ricci formula with powers"),
}
from extra_plan import EXTRA
PLAN.update(EXTRA)
def main():
    ps = [json.loads(l) for l in open(R + "/properties.jsonl")]
    man = {c["property"]: c for c in json.load(open(R + "/MANIFEST.json"))["claims"]}
    where = {}
    for f in sorted(glob.glob(R + "/lean/Verif/*/*.lean")):
        mod = f.split("/lean/Verif/")[1]
        for m in re.finditer(r"^theorem (C\d+_\w+)", open(f).read(), re.M):
            where[m.group(1)] = mod
    out = ["", "| id | property | modelled | proof | theorems in | status |", "|---|---|---|---|---|---|"]
    for p in ps:
        c = man[p["id"]]; mo, pr = PLAN[p["id"]]
        w = sorted({where[t.split(".")[-1]] for t in c["theorems"]})
        mo, pr, ti = (x.replace("|", "\\|") for x in (mo, pr, p["title"]))
        out.append(f"| {p['id']} | {ti} | {mo} | {pr} | {', '.join(w)} | {c['status']} |")
    out += ["", "## Findings: what the code does not satisfy", "",
            "Each entry is a property kept at full strength whose negation is proved for the model with a witness "
            "(theorem suffix `_refuted…`), next to the part that does hold.", ""]
    for p in ps:
        c = man[p["id"]]
        ref = [t.split(".")[-1] for t in c["theorems"] if "refuted" in t]
        if ref: out.append(f"* **{p['id']}** {p['title']}. {c['note']} ({', '.join('`'+t+'`' for t in ref)})")
    out.append("")
    f = R + "/DESIGN.md"; t = open(f).read()
    mark = "<!-- generated below by tools/design.py -->"
    open(f, "w").write(t.split(mark)[0] + mark + "\n" + "\n".join(out))
main()
