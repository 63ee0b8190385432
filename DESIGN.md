# Design: a machine-checked model of raytools

Target: stephanwaz/raytools at the pinned commit in /repo (read as text only).
Prover: Lean 4.33.0 with Mathlib. Project: `lean/`, modules under `lean/Verif/`.

## Layout

* `Verif/Model/*.lean` — the model: one definition per Python function (or per stage of a long function), each with a comment citing file and lines and naming every simplification.
* `Verif/Spec/*.lean` — small specifications written without the model's helpers, where a property needs vocabulary.
* `Verif/Lemmas/*.lean` — auxiliary lemmas.
* `Verif/Props/*.lean` — the property theorems (named in MANIFEST.json) and the `example`s showing their hypotheses are met.
* `seeded/LOG.jsonl` — realistic bugs planted in scratch copies of the model, with the theorems that stopped proving.

Three shapes of theorem are used: an algebraic law or round trip over all inputs; an invariant by induction over a
history, a loop or a schedule; the refinement of a Python procedure to a short specification. Exceptions are values
(`Except Py.PyErr`), so "raises ValueError" is part of a statement.

## Trusted base

* Lean's kernel and the axioms listed under *Axioms*. No own axioms, no `sorry`/`admit`, no `native_decide`/`bv_decide`.
* The reading of the Python source into the model (comments cite lines).
* Numbers: float64 code is modelled over exact real numbers (or any linearly ordered field, or ℚ where a witness is evaluated), except in the modules `Model/Rounded*` (C163 to C167, C180, C206, C209, C210), where every operation is rounded under a contract of relative errors (`Verif.Fp.Arith.Ok`); `Model/Binary64` is round to nearest even with 53 bits and an unbounded exponent, and meets the contract. Elsewhere rounding is not modelled. Overflow, underflow and signed zero are not modelled; NaN and infinity only where a model says so (`Model/Special` for the metrics, C169). Division by zero gives 0 in Lean and nan/inf in numpy: theorems that reach such a division exclude it or say so.
* numpy by its documented meaning: `arctan2` = argument of a complex number, `mod` = floored modulus, `isclose` = |a-b| <= atol + rtol|b|, `argsort` = some sorting permutation (unstable: theorems hold for every one), `np.empty` = arbitrary content, `interp` = linear between the points, constant outside (`Model/Curcio`), `np.repeat` with float counts truncates.
* Vectorised row-wise code is modelled per row and lifted with `List.map`/`Finset` sums where the batch matters. Aliasing of numpy arrays is modelled only in `Model/Alias.lean` (mappers) and `Model/Live.lean` (metric sets).
* Contracts for code outside the repository. They are hypotheses or structure fields in Lean, never axioms, and each has a witness in an `example`:
  * `NumOk` — printed numbers read back as themselves and hold no white space;
  * `WrapOk` — the pieces of `textwrap.wrap` concatenate to the text, the first is not empty, short text is not broken; proved for the model of Python 3.11's `textwrap` (`Model/Textwrap.lean`), which was compared with the real module (`tools/stdlib_diff.py`); where `textwrap` does not end (C130) theorems stated for any `WrapOk` say nothing about the code;
  * `NodeOk` — `RegularGridInterpolator` returns the grid value at a grid node;
  * `Averaging` — `gaussian_filter` is a nonnegative linear average (proved for the model of `gaussian_filter` in `Model/Gauss`, C183_averaging);
  * `SortOk` — a column sort is some sorting permutation;
  * pvalue/getinfo — Radiance's pixel store returns the pixels and the header it was given; in `Model/Rgbe.lean` (C207, C208) the store has four bytes per pixel, written down from the documentation of `setcolr` and `colr_color`;
  * `cKDTree.query_ball_tree` — lists are the sorted indices within the tolerance;
  * probability densities of smoothing kernels are nonnegative;
  * `uniform_filter` — mean over the window;
  * a process pool runs each task once, on its own pickled copy, in any order; when a worker dies the manager thread gives all unfinished futures an exception (C203), workers keep their own interpreter memory (C204).

The definitions standing for Python's string operations (`splitlines`, `strip`, `split`, `shlex.split`, `textwrap.wrap` with the options of the code, `rsplit`, `:02d` and the three regular expressions of the header cleaner) were compared with Python 3.11 on about 480 000 random texts without a difference; `tools/stdlib_diff.py SEED COUNT` repeats this. It runs the library and the Lean definitions only, nothing of /repo, and it is a test of the trusted base, not a proof.

## Axioms

`#print axioms` of every theorem named in MANIFEST.json gives a subset of `propext`, `Classical.choice`, `Quot.sound`.
All theorems not listed here depend on exactly these three.

* no axiom: `Verif.Cache.C05_stale_after_assignment`, `Verif.Cache.C05_refuted`.
* propext: `Verif.Pool.C03_unpack_failure_differs`, `Verif.Bytes.C06_length`, `Verif.Bytes.C06_truncated_rejected`, `Verif.Bytes.C08_not_a_picture`, `Verif.Raypath.C09_unset`, `Verif.Files.C124_others_untouched`, `Verif.Header.insetText_all`, `Verif.Pool.C168_loop`, `Verif.Pipes.C176_four_channels`, `Verif.Shared.C204_caller`, `Verif.Shared.C204_refuted_threads`, `Verif.Shared.C204_refuted_processes`, `Verif.Map.C87_plain`.
* Quot.sound, propext: `Verif.Cache.C04_reads_independent_of_history`, `Verif.Cache.C04_metric_sets`, `Verif.Cache.C05_framesize_partial`, `Verif.Cache.C05_fresh_request_partial`, `Verif.IoMisc.C10_outcomes`, `Verif.Files.C123_partial`, `Verif.Files.C124_failure_partial`, `Verif.Files.C124_reading`, `Verif.Files.C124_stdout`, `Verif.Files.C155_partial`, `Verif.Header.C156_depth`, `Verif.Header.C16_entries_partial`, `Verif.Live.C174_exact_partial`, `Verif.Live.C174_unread_partial`, `Verif.Pipes.C176_only`, `Verif.Pipes.C176_hangs`, `Verif.Pipes.C176_refuted`, `Verif.GssSave.C191_partial`, `Verif.Shared.C204_results_partial`, `Verif.Shared.C204_one_partial`, `Verif.Take.C39_ndim`, `Verif.Metric.C70_accepts`, `Verif.Map.C87_jitter_partial`.

## What is modelled

| file in /repo/raytools | modelled | not modelled |
|---|---|---|
| `__init__.py` | `set_raypath` | |
| `io.py` | `get_nproc`, `set_nproc`, `unset_nproc`, `np2bytes`, `np2bytefile`, `bytes2np`, `bytefile2np`, `_array2hdr`, `array2hdr`, `carray2hdr`, `_hdr_in`, `hdr2array`, `hdr2carray`, `header_items`, `clean_header`, `is_hdr`, `hdr_header`, `rgb2rad`, `rgb2lum`, `rgbe2lum`, `load_txt`, `CleanHeader` | the run length coding inside pvalue (its pixel store is in `Model/Rgbe.lean`, the programs are arbitrary filters in `Model/Pipes.lean`) |
| `utility.py` | `pool_call` | `TStqdm` (progress bar drawing) |
| `translate.py` | every function | float rounding outside of `Model/Rounded*` |
| `imagetools.py` | every function | rounding inside the interpolator (its two methods are in `Model/Interp`) |
| `mapper/mapper.py` | every method | |
| `mapper/viewmapper.py`, `angularmixin.py`, `solidviewmapper.py`, `perspectiveviewmapper.py` | every method | views of numpy arrays sharing memory except in `Alias.lean` |
| `evaluate/basemetricset.py`, `metricset.py`, `colormetricset.py` | every metric, the stray and solid angle corrections, cached properties | |
| `evaluate/positionindex.py` | every method | |
| `evaluate/retina.py` | densities with their tables, blur, pupil and adaptation formulas | |
| `evaluate/hvsgsm.py` | the `GSS` class, its state, every stage, `gss_compute` | file reading inside (contract) |
| `cli.py` | `metric`, `project`, `align`, `solid2ang`, `smooth`, `cleanheader` at the level of calls and files | click/clasp option parsing, `main`, `printconfig` |

Also outside: plotting, the Radiance executables, image codecs.

## What the model found

Each line is a claim one would expect from the documentation and which is false of the code; the property in brackets
holds the statement, its refutation on a concrete witness and the part that does hold.

* Caches: `framesize` keeps the old shape after `aspect` is assigned [C05].
* Files: `is_hdr` compares text with bytes and never answers True [C11]; header lines with the same key are joined before `header_items` sees them [C12]; a leading continuation line raises IndexError [C15]; nesting of sections [C16]; `rgbe2lum` wraps for uint8 exponents below 128 [C19].
* Sphere and square: x mirrored below the horizon [C25]; closed upper edges wrap [C27]; tiny polar caps snap to the pole [C30, C31, C36], so that rim rays of a 360 degree view land in the other half [C54]; `tpnorm` reverses the direction for odd multiples of pi [C32] and truncates integer arrays [C89]; tolerance of `xyz2skybin` wraps around the border [C82].
* Resampling: `int(1/(1/r))` [C40]; quantiles just below 1 [C42, C44]; ties with different weights [C43]; several features with the fallback raise TypeError [C45]; unsorted samples are not sorted back [C46].
* Mappers: the planar pixel round trip is mirrored [C48]; `idx2uv` for non-square grids [C49]; nominal and effective view angle differ [C53, C86, C90]; transforms overwrite their argument [C56]; the equisolid mapper implements the inverse law [C57]; the perspective class is the equisolid one [C58]; jitter raises [C87]; `transform_to` exchanges source and destination [C91].
* Headers: views other than angular are written but not read [C17]; an image without a view makes `GSS` open a file called None [C97].
* Metrics: stray rays overwrite the solid angles of all strays [C72]; additivity fails with strays [C65]; the solid angle correction needs a ray on the edge [C66, C69]; positions ignore `up`, Kim index in the caps [C73], index drops to 1 off the line of sight in the caps [C92]; ganglion density selects meridians with the wrong coordinate [C75], differs between meridians at the fovea [C93] and truncates integer input [C94].
* Glare sensation: adaptation of black pixels [C95]; black images fail [C96]; the first image's view is used for all [C98]; from the age of 39 more light opens the pupil around 160 lux [C100]; position weight near the centre [C101]; view changes keep the old geometry [C79, C103].
* Peaks and command: partial suns take one ray's colour [C104]; large pixels [C105]; secondary directions are not unit [C106]; illuminance can move when removed rays are behind the sensor [C61]; colour metrics without LuminanceRGB raise TypeError [C64]; near-default weights are replaced [C107]; irradiance prints three values under one column [C81].
* Aligning: linear interpolation works on a grid shifted by half a pixel, so zero and quarter turns blur and the last row is extrapolated, even to negative values [C111, C112, C116]; the order option changes nothing [C115]; centring is inexact only in caps around the vertical [C113, C114].
* Equisolid conversion: the inverse law [C57] and the exchanged views [C91] cancel for 180 degrees; for other angles the result is wrong [C109].
* Shell: header lines with quotes are split or raise ValueError when written back [C117]; paths with blanks are passed as two files [C118].
* Names: `align` without options writes over its input [C119]; a dot in a directory moves the output when the file has no extension [C120]; `a.hdr` and `a.pic` share an output [C121]; angles are cut to whole degrees and targets left out of the name [C122].
* Batches and failures: an image and its own conversion in one batch race [C123]; the output is opened before its header is cleaned, so a header that cannot be cleaned leaves an empty file, and `align` without options then has emptied its input [C124].
* Headers of converted images: the square version of an image keeps the angular view, the equisolid one gets an angular view, and both directions of `solid2ang` write a view along y [C125]; `solid2ang` ignores the size of views that are not angular [C126]; every header line with the word RADIANCE is dropped [C127].
* `project` with `--useview` ignores views that are not angular [C128]; cleaning a header twice changes it again when a key is repeated [C129].
* `clean_header` never returns for an entry of more than 150 characters whose first `=` stands behind column 148 (a `pcomb` command with many pictures and an expression): the indentation made of the text before `=` is wider than the line, and `textwrap` of Python 3.11 then adds empty pieces for ever [C130]; with exactly 148 it writes lines of 151 characters, and view lines are not wrapped at all [C131].
* Wrapping long entries breaks words at hyphens; reading the cleaned header then gives two words (`my-scene` becomes `my- scene`) [C132]; after a repeated line, the next line of its key is added to the entry of another key (`A= 1`, `B= 2`, `A= 1`, `A= 3` gives `B= 2 3`) [C133].
* `smooth` without y gives its width to `gaussian_kde`, which takes it as a factor of the standard deviation: the default width is variance·n^-0.2 (not Scott's rule) and changes with the unit of x, and a given sigma is not a length [C135]; when all x are equal the first row of the file is printed for every point [C137]; a file of one row is read as a column [C138].
* `init_img`: the projection name `equiangular` selects the equisolid projection and `vt` the square one, because only one letter is looked at [C141]; an equisolid image of a 360 degree view has vectors for the upper half of its rows only [C142]; `SolidViewMapper.init_img` labels its equisolid image `-vta` [C145]; `solid_ray2pixel` of a 360 degree view gives nan for directions within 45 degrees of the back [C147]; the mask of a planar mapper does not index the image it is returned with [C148].
* `GSS.apply_psf`: a window with an even number of pixels has no middle pixel, and the energy that the peak is to hold is put in one of the four central pixels, so the blur is shifted [C150]; the kernel is built from a view of `fwidth` degrees whose pixels are smaller than those of a 180 degree image by the chord factor (about 0.9), so the blur is 10 percent too narrow [C151].
* The average luminance of a fine image of a view narrower than 180 degrees is too low: the pixels cover the cone of `chordfactor * viewangle`, none of them reaches the nominal edge where the correction of solid angles looks, and the sum is divided by the solid angle of the nominal cone. For a uniform image of 90 degrees about 14 percent are missing, and the illuminance is too low as well [C159].
* The mask of a narrow angular image in a nearly (not exactly) vertical direction leaves out the pixel in the middle of the image: the rotation of the mapper is off by more than half the view angle [C143].
* `GSS.sigma_c` uses image coordinates as if every view showed 180 degrees: in a view of about 60 degrees a direction 15 degrees above the line of sight gets the field width of 45 degrees [C154].
* A conversion reads its input with several processes: when another conversion of the batch writes that file in between, the output has the pixels of the old version and the header of the new one [C155].
* Cleaning a header twice can raise: a line without `=` that is wrapped behind a word ending in a colon is read as a section title followed by a continuation line without anything to continue, an IndexError [C152].
* Rounding: `uv2bin(bin2uv(b, side, offset=0), side)` is not `b` for many sides that are not powers of two (11, 13, 22, 23, ...): cell 13 of side 23 comes back as 12. With `jitterrate = 1`, the default of `Mapper`, the largest draw of the generator moves an index to the next cell, out of the grid for the last one [C164].
* Rounding: `backlum` is a difference of two sums. When almost all light comes from sources it can come out negative for some orders of the additions (binary64), and `ugr` is then nan [C165].
* A call that raises does not stop a parallel `pool_call`: the progress bar closes without shutting the executor down, so the calls already submitted still begin after the exception has reached the caller [C168].
* `workers` may be any text: every non-empty string other than `t`, `thread`, `threads`, also `"False"`, selects processes [C168].
* The cap of processes is checked by `set_nproc` only: 0 or a negative number in the environment variable is returned as it is by `get_nproc` and makes the executor raise a ValueError [C01].
* A black scene has no glare metrics: `log_gc`, `dgp`, `ugr` and `ugp` are nan (0/0), while contrast metrics and averages have a value for it. Sources before a black background have `ugr` infinite and `ugp` 1. In a 360 degree view with more light behind than in front the illuminance is negative and `dgp` nan [C169].
* A threshold relative to the task area (at most 100) is nan when no ray lies in the area: then nothing is a glare source, without a warning [C169].
* `normalize_peak` without a pixel above the threshold returns a flat array of zeros as the peak and None as secondary sources, where callers otherwise get a tuple and a list; when a single ray is left the returned luminances have no axis for rays [C170].
* Position weighted metrics of a view straight up or down change when scene and view are turned about the vertical: the upper edge of such a view is fixed to the compass [C171].
* The correction of solid angles (the default of `MetricSet`) starts at 101 rays: cutting one of a hundred rays in two changes `view_area` and every metric that uses it [C172].
* A metric set keeps the caller's mapper, and for a 360 degree view the caller's luminances and solid angles: metrics not read yet follow later changes to them, metrics already read do not, so one set can report 18 lux at average luminance 0. Making a narrower set from the same arrays can be such a change, since it may clip the solid angles in place [C173, C72].
* Assigning an attribute of a metric set (`scale`, `tradius`, `guth`, ...) has no effect on metrics already read, unless the metric of another set was read in between [C174].
* A hemispherical mapper whose aspect is set to 2 has no opposite view until a direction is assigned: `xyz2vxy` and `pixelrays` raise an AttributeError [C175].
* `array2hdr` with a header never returns for an array with one or two channels: `pvalue` waits for three floats per pixel, `getinfo` for `pvalue` and python for `getinfo`, while the input of `pvalue` stays open. Without a header the same call returns and leaves an incomplete file. With four channels it returns or raises BrokenPipeError, depending on the schedule [C176].
* Readers of pixels do not read the error stream of `pvalue`: more messages than a pipe holds block both sides for ever [C177].
* In floating point, coordinates just inside the edge of the lower square (such as v = 2⁻⁶⁰) get height 0 from `uv2xyz`, and `xyz2uv` puts them into the upper square [C178].
* `non_uniform_gaussian_filter` with `amethod='median'` or a single quantile raises an IndexError for more than one feature, although its documentation only excludes several quantiles: values are flattened, weights are not repeated [C181].
* In `weighted_quantile` with a negative threshold one quantile of an array can switch all the others to the unweighted formula [C181].
* `resample` without the Gaussian and an even `int(radius)` shifts the array by half an entry and changes its mean: scipy's box of even size is not centred [C182].
* In `apply_psf` a window with an even number of pixels displaces every point towards the first row and column: the kernel is centred half a pixel early, its peak a whole pixel [C183].
* `transform_to` with linear interpolation extrapolates in the outer half of border pixels: an image without negative values can get negative ones [C184].
* `rgc_density_on_meridian`: the tables keep no value at the fovea, so at eccentricity 0 the four meridians return 44.0, 28.6, 13.6 and 37.4 cells per square degree: the density jumps with the direction in which the fovea is approached; the outermost inferior measurement (0.68) is returned as 1 [C185].
* Drawing: `grow` filters the whole image, so that what it showed before is spread and multiplied, overlapping dots add up and a dot in a corner is four times as bright [C187]; `plot` of a 360 degree mapper drops the rays behind it [C188]; mask entries with negative positions are drawn at the opposite edge [C55].
* `imgmetric` fails for every image of both hemispheres and for every image with light in it that is not square: `pixelrays` has the rays of both halves, `pixels` those of one half, and the masks of the metric set have the wrong length [C189].
* The table of the `metric` command does not quote image names: a tab in a name shifts the results by one column, a newline makes two rows [C190].
* `raytools metric gss gssnb --gssimage` saves the response of both models under the same name, so only that of `gssnb` is left; `gss_compute(..., outdir=...)` overwrites responses of images with the same name in different directories [C191].
* `hdr2vm` looks for the last text `VIEW= -vta` anywhere in the header: an angular view an image was reprojected from, or one of a picture it was combined from (indented line), counts as its view; the words `cannot open` anywhere in a header make the image count as missing [C192].
* `transform_to` stores its values in an array of the type of the image: with linear interpolation images of whole numbers lose all fractions (a 0/1 mask becomes 0 wherever it is blended) [C193].
* `array_uv2ang` followed by `array_ang2uv` can turn corner cells black: their centre is drawn in a pixel whose own centre is outside the circle (4, 24 or 31 cells per side) [C195].
* `weighted_quantile` never reads the weight of the smallest value: 0 with weight 1000 and 1 and 2 with weight 1 have the median 1 [C197].
* `img_size` of a file whose name has a blank and a capital X or Y after it raises `ValueError`; of a missing file it returns (1, 1) [C198].
* `pool_call` with processes can wait for ever when a worker is killed while arguments are still being submitted: in Python before the executor closes under its lock, a submission that has passed the check for a broken pool is entered into a pool whose manager has ended [C203].
* `pool_call` is not equivalent to the documented loop for functions that use what earlier calls leave behind: with threads the order is that of the schedule, with processes every worker counts for itself and changes to arguments are lost [C204].
* `in_view` of a view smaller than about 1e-6 degrees contains directions outside it: the cosine of angles below 1e-8 is rounded to one [C206].
* `rgbe2lum` and reading a picture disagree for pixels with a black channel: the reader adds half a step to a mantissa of zero, `rgbe2lum` does not; pure blue differs by six per cent [C208].
* A mapper whose `dxyz` is between about 1e-8 and 1.8e-8 rad off straight down, e.g. `(2**-26, 0, -1)`, looks straight up: the normalised z is -1, `np.isclose` does not take the vector as straight down, and `tpnorm` reduces the polar angle pi to 0 [C209].
* In double precision not only (0, 0, -1) but every vector whose normalised z rounds to -1 (up to 1.5e-8 off straight down) comes back from `tp2xyz(xyz2tp(p))` as straight up [C210].
* A glare rating leaps when a pixel passes the threshold: saving a picture and reading it back changes a luminance by up to 0.4 per cent, and a pixel of 2000 that comes back as 2008 takes `ugr` from 0 to 28. Off the threshold the change is at most 0.05 points [C211].
* A weighted quantile jumps when two values with different weights pass one another, however near they are (median from 1 to 2/3 for 0, 1, 1 + d) [C212].
* `weighted_median(-d, w)` is not `-weighted_median(d, w)`: a step between neighbours has the weight of the larger one, so 0, 1, 2 with the weights 1, 1, 3 have the median 4/3 and mirrored -1 [C213].
* In double precision `weighted_quantile` drops all weights when the weight of the smallest value is more than 2^54 times each of the others: the cumulative weights are all zero, the lookup raises inside the function and the unweighted quantile is returned [C215].
* A weighted quantile is steady in q up to the band of 1.001e-5 below 1, where it falls by a whole step between neighbouring values (for 0 and 1 from 0.99998 to 0) [C216].
* A larger tolerance of `cull_vectors` can keep more vectors: of (1, 0), (0, 0), (-0.54, 0.72), (-0.54, -0.72) two are kept with 0.95 and three with 1 [C218].
* `weighted_quantile` leaves out entries with a NaN weight but counts NaN values as the largest: the median of 0, 1, NaN is NaN, lower quantiles are shifted by the weight of the NaN entries [C220].
* In double precision `chord2theta(theta2chord(theta))` loses up to about 1e-8 near 180 degrees, as the chord no longer tells angles apart [C221].
* In double precision `radians(norm(v), norm(v))` is not zero for `v = (1, 1, 0)` but 2e-8 rad; angles are exact to 1e-7 only [C222].
* `rotate_elem(v, 90)` is not exact in double precision. The converted angle is a double, hence rational, so its cosine is never zero: `(1, 0, 0)` turned by 90 degrees keeps an x coordinate of the order of 1e-17, and exact tests against zero on turned axes fail for every angle [C225].

## Properties

Plan first, then the result as recorded in MANIFEST.json. A claim that is false of the code is kept in full in
properties.jsonl; the model then proves its negation on a concrete witness (`_refuted`), and theorems with suffix
`_partial` prove the part that does hold.

* **C01 Process cap behaves like a single optional cell** — Model: environment cell `Option String`-like with Python int parsing/printing, three calls as a step function. Proof: simulation (refinement) to an `Option Nat` cell by induction over the history. *Result:* proved: `Nproc.C01_get_after_history`, `Nproc.C01_rejects_exactly_non_int`, `Nproc.C01_environment_text_is_the_cap`, `Nproc.C01_ineffective_calls_invisible`, `Nproc.C01_text`, `Nproc.C01_outside_cap_not_checked`. Every history of set_nproc/unset_nproc/get_nproc calls, and every text of the variable set from outside.
* **C02 pool_call returns results in argument order under every schedule** — Model: task table (pending/running/done) with nondeterministic start/finish events, gather loop reading futures in submission order. Proof: invariant over event traces, result equals `List.map`. *Result:* proved: `Pool.C02_results_in_argument_order`, `Pool.C02_every_schedule_ends`. Every schedule of an executor with any number of workers.
* **C03 pool_call raises the first failing argument's exception under every schedule** — Same model with outcomes `Except`; invariant plus first-error lemma, equality with the sequential loop. *Result:* proved: `Pool.C03_pool_equals_sequential_loop`, `Pool.C03_first_failing_argument`, `Pool.C03_outcome_independent_of_mode`, `Pool.C03_unpack_failure_differs`. C03_unpack_failure_differs records the one case (argument that cannot be unpacked) where pool and sequential loop differ.
* **C04 Cached metric reads are independent of access history** — Model: one cache slot per metric keyed by object identity, read history as list; invariant 'slot holds the right value'. *Result:* proved: `Cache.C04_reads_independent_of_history`, `Cache.C04_metric_sets`. Every dependency graph and every read history.
* **C05 framesize follows the mapper's current aspect** — Model: same slot keyed by (object, resolution), aspect mutable. Claim is false for histories with assignments after a read: negation with witness, `_partial` for histories without. *Result:* partial: `Cache.C05_framesize_partial`, `Cache.C05_fresh_request_partial`, `Cache.C05_stale_after_assignment`, `Cache.C05_refuted`. The full claim is false: framesize is cached per object and resolution and keeps the old shape after aspect is assigned (C05_stale_after_assignment).
* **C06 Array to bytes and back is the identity** — Model: items as fixed width little/big endian byte groups, row-major shapes, -1 inference. Proof: induction on lists and digits. *Result:* proved: `Bytes.C06_round_trip`, `Bytes.C06_length`, `Bytes.C06_inferred_dimension`, `Bytes.C06_wrong_size_rejected`, `Bytes.C06_truncated_rejected`. Bit level float32 words; the conversion float64 to float32 is outside the model.
* **C07 Binary files accumulate appended arrays in order** — Model: file content as byte list, open modes; induction over write history. *Result:* proved: `Bytes.C07_file_accumulates`. Every history of wb/ab writes to a new file.
* **C08 HDR write then read preserves pixel positions** — Model: index functions for transposes/flips, pvalue as an identity channel on row-major data (trusted). Proof: index arithmetic. *Result:* proved: `Bytes.C08_grey_round_trip`, `Bytes.C08_orientation`, `Bytes.C08_colour_round_trip`, `Bytes.C08_not_a_picture`, `Bytes.C08_resolution_line`. Radiance's pvalue/getinfo are modelled by contract.
* **C09 RAYPATH set-up is ordered, duplicate free and idempotent** — Model: string split/join on ':' and the insertion/dedup code. Proof: list lemmas. *Result:* proved: `Raypath.C09_entries`, `Raypath.C09_unset`, `Raypath.C09_idempotent`. Package directory without the separator character.
* **C10 load_txt maps every outcome to its documented exception** — Model: decision function over an abstract file system. *Result:* proved: `IoMisc.C10_outcomes`. np.loadtxt and os.path.isfile are arbitrary functions.
* **C11 is_hdr recognises Radiance files** — False: text/bytes comparison. Negation; model of Python str==bytes. *Result:* partial: `IoMisc.C11_is_hdr_never_true`, `IoMisc.C11_not_hdr_partial`, `IoMisc.C11_refuted`. The claim is false: is_hdr compares text with bytes and never answers True.
* **C12 header_items returns the last value for each requested key** — Model: fold over lines. Spec: last match. Induction. *Result:* partial: `Header.C12_last_value_partial`, `Header.C12_tree_partial`, `Header.C12_view`, `Header.C12_format_never_found`, `Header.C12_consecutive_lines_joined`, `Header.C12_refuted`. Holds for the cleaned header, for the header as given when it is a tree without repetitions, and for the view always; false in general (FORMAT lines are removed first, consecutive lines with the same key are joined).
* **C13 clean_header keeps exactly the last view and drops format lines** — Model: the preprocessing state machine with a heap of section nodes. Invariant over the fold. *Result:* proved: `Header.C13_only_last_view`. Non-interference: equality with the cleaned header of the input without these lines, plus one VIEW line.
* **C14 clean_header loses no other information** — Same machine; invariant 'every kept string is reachable'. *Result:* proved: `Header.C14_nothing_lost`, `Header.C14_alphabet`. textwrap is a contract (pieces concatenate to the text, short text unbroken).
* **C15 clean_header accepts every header** — False: continuation line first. Negation plus `_partial` (accepts every header without continuation lines and ...). *Result:* partial: `Header.C15_accepted_partial`, `Header.C15_only_index_error`, `Header.C15_not_always_accepted`, `Header.C15_refuted`. False as stated: a leading continuation line raises IndexError.
* **C16 clean_header keeps file sections nested as in the input** — False: sign error. Negation plus `_partial`. *Result:* partial: `Header.C16_entries_partial`, `Header.C16_sections_iff`, `Header.C16_misnested`, `Header.C16_tree_partial`, `Header.C16_refuted`. False as stated; exact condition proved for regular indentation, and the whole result for trees without repetitions.
* **C17 View header text round trip** — Model: token list of the header line, token search of hdr2vm; numbers abstract with exact text round trip (trusted float formatting). *Result:* partial: `ViewHdr.C17_round_trip_partial`, `ViewHdr.C17_refuted`, `ViewHdr.C17_img_size`, `ViewHdr.C17_example`, `ViewHdr.C17_view_file`. round trip proved for the angular projection under the number format contract NumOk, for any header with the view line last; C17_refuted: other projections written by header() are not read by hdr2vm.
* **C18 Radiance/luminance conversion is linear and consistent** — Dot product over reals. *Result:* proved: `IoMisc.C18_lum_is_179_rad`, `IoMisc.C18_linear`, `IoMisc.C18_monotone`, `IoMisc.C18_grey`, `IoMisc.C18_default_weights`. Exact real arithmetic, any number of channels.
* **C19 rgbe2lum decodes the RGBE format** — Natural-number digits, real scaling; uint8 wrap modelled; negation for e<128 with uint8, `_partial` otherwise. *Result:* partial: `IoMisc.C19_decodes_partial`, `IoMisc.C19_monotone_partial`, `IoMisc.C19_uint8_wraps`, `IoMisc.C19_refuted`. False for uint8 arrays with exponent byte below 128 (C19_uint8_wraps).
* **C20 Vector normalisation** — Real 3-vectors; algebra. *Result:* proved: `Geo.C20_norm_unit`, `Geo.C20_norm1`, `Geo.C20_norm_scale`, `Geo.C20_norm_idem`. exact reals; norm of the zero vector is NaN in numpy and excluded.
* **C21 uv2xyz lands on the unit sphere** — Reals with Mathlib trig; case split on the code's branches. *Result:* proved: `Geo.C21_uv2xyz_sphere`. every axis permutation, both signs, whatever np.empty held before.
* **C22 uv2xy maps squares to concentric circles** — same *Result:* proved: `Geo.C22_uv2xy_radius`, `Geo.C22_uv2xy_circles`, `Geo.C22_uv2xy_disk`, `Geo.C22_lift_back`.
* **C23 Direction -> uv -> direction is the identity on the whole sphere** — same, arg/arctan2 lemmas *Result:* proved: `Geo.C23_xyz_uv_xyz`, `Geo.C23_in_rect`, `Geo.C23_xyz_uv_xyz_normalize`. whole sphere, every axis permutation.
* **C24 uv -> direction -> uv is the identity** — same *Result:* proved: `Geo.C24_uv_xyz_uv`, `Geo.C24_equator`. the excluded edge is characterised by C24_equator.
* **C25 Sky-orientation round trip** — False below the horizon (mirrored): negation and `_partial` for z>=0 / x=0. *Result:* partial: `Geo.C25_sky_round_trip_partial`, `Geo.C25_sky_orientation`, `Geo.C25_refuted`. false below the horizon off the plane x=0 (x mirrored); exact characterisation proved.
* **C26 Grid bins and uv cells are inverse** — Int floor arithmetic. *Result:* proved: `Geo.C26_bin_uv_bin`, `Geo.C26_cells_disjoint`, `Geo.C26_uv_in_cell`.
* **C27 uv2ij always returns a valid grid index** — False at v=1: negation and `_partial` half-open. *Result:* partial: `Geo.C27_index_range`, `Geo.C27_cell_partial`, `Geo.C27_wraps`, `Geo.C27_refuted`. false on the closed upper edges (v=1 wraps to row 0, u=2 to column side).
* **C28 Sky patch centre round trip** — C24+C26 composition. *Result:* proved: `Geo.C28_sky_patch`, `Geo.C28_below`.
* **C29 Tolerant sky bin lookup** — Real vectors, list filter/unique. *Result:* proved: `Geo.C29_tolerant`, `Geo.C29_contains_own`, `Geo.C29_contains_own_norm`.
* **C30 Spherical angles round trip** — False at -z: negation and `_partial` outside the tolerance caps. *Result:* partial: `Geo.C30_tp_xyz_tp`, `Geo.C30_xyz_tp_xyz_partial`, `Geo.C30_cap_error`, `Geo.C30_nadir`, `Geo.C30_refuted`. false at -z (returns +z) and inexact inside two tiny polar caps; error bound proved there.
* **C31 Altitude/azimuth round trip** — Same. *Result:* partial: `Geo.C31_aa_partial`, `Geo.C31_azimuth`, `Geo.C31_refuted`. azimuth is in (-90,270], not [-180,180]; caps and nadir as in C30.
* **C32 tpnorm reduces angles without changing the direction** — False for theta outside [0,pi): negation and `_partial`. *Result:* partial: `Geo.C32_tpnorm_range`, `Geo.C32_tpnorm_direction`, `Geo.C32_tpnorm_partial`, `Geo.C32_refuted`. direction kept iff floor(theta/pi) is even.
* **C33 Chord and angle conversions are inverse and geometric** — Real trig. *Result:* proved: `Geo.C33_chord_inverse`, `Geo.C33_chord_geometric`.
* **C34 Angles between vectors** — Mathlib angle lemmas. *Result:* proved: `Geo.C34_angle_basic`, `Geo.C34_angle_extremes`, `Geo.C34_angle_triangle`.
* **C35 Elementary rotations** — Ring identities with sin^2+cos^2. *Result:* proved: `Geo.C35_preserves`, `Geo.C35_compose`, `Geo.C35_full_turn`, `Geo.C35_inverse`, `Geo.C35_quarter_turn`, `Geo.C35_is_rotation`.
* **C36 Look-at rotation** — Real trig; exact outside caps, bound inside. *Result:* partial: `Geo.C36_rotations`, `Geo.C36_inverse`, `Geo.C36_up`, `Geo.C36_look_at_partial`, `Geo.C36_cap_error`, `Geo.C36_refuted`. everything holds for all vectors except that v/|v| goes to +z only up to 6.5e-5 inside two polar caps.
* **C37 Reflection** — Ring. *Result:* proved: `Geo.C37_reflect`, `Geo.C37_mask`, `Geo.C37_batch`.
* **C38 cull_vectors keeps a maximal well-spaced subset** — Model: greedy loop over neighbour lists of arbitrary order. With sorted lists: invariant; arbitrary order: negation. *Result:* proved: `Cull.C38_cull`, `Cull.C38_order_matters`. Any finite list of points of a pseudo-metric space and any tolerance; relies on scipy returning sorted neighbour lists (C38_order_matters shows the dependence).
* **C39 simple_take indexes each axis independently** — Nested list arrays with a rank, Python slice arithmetic. *Result:* proved: `Take.C39_take`, `Take.C39_ndim`, `Take.C39_raises`. Any shape, any arguments, axes named at most once (C39_ndim also for repeated axes). Python slices are specified by membership and order, not by the CPython arithmetic.
* **C40 Whole-number resampling** — Block sums, list model. *Result:* partial: `Resamp.C40_up`, `Resamp.C40_up_mean`, `Resamp.C40_down_partial`, `Resamp.C40_down_mean_partial`, `Resamp.C40_undo_partial`, `Resamp.C40_fl64_93`, `Resamp.C40_refuted`. Enlarging is proved, reducing under the condition that the rounded ratio inverts to the factor (always in exact arithmetic, for powers of two in doubles). C40_refuted: in doubles reducing 93 entries to one returns two.
* **C41 Weighted quantile stays within the data and hits the end points** — Sorted cumulative weights, searchsorted; list induction. *Result:* proved: `Quant.C41_range`, `Quant.C41_raises`, `Quant.C41_total`, `Quant.C41_excluded`. Over any ordered field and every order the unstable sort may give equal values.
* **C42 Weighted quantile is nondecreasing in q** — Negation near 1, `_partial`. *Result:* partial: `Quant.C42_monotone_partial`, `Quant.C42_refuted`. False for q' just below 1 (np.isclose drops the interpolation); proved when q' is 1 or at least 1.001e-5 below.
* **C43 Weighted quantile does not depend on input order** — Negation with ties, `_partial` for distinct values. *Result:* partial: `Quant.C43_order_partial`, `Quant.C43_run`, `Quant.C43_refuted`. False when equal values carry different weights; proved otherwise.
* **C44 Weighted quantile is weight-scale free and agrees with the unweighted one** — algebra on the same model. *Result:* partial: `Quant.C44_scale`, `Quant.C44_equal_weights_partial`, `Quant.C44_refuted`, `Quant.C44_numpy`, `Quant.C44_median`. Scale invariance proved in full; agreement with np.quantile fails for q just below 1, proved for all other q.
* **C45 Smoothing is an averaging operation** — Finite weighted sums. *Result:* partial: `Smooth.C45_between_partial`, `Smooth.C45_constant_partial`, `Smooth.C45_fallback_partial`, `Smooth.C45_fallback_raises`, `Smooth.C45_refuted`, `Smooth.C45_band`, `Smooth.C45_self_raises`. Bounds and constants hold whenever the call returns, interpolation for one feature; with several features the fall back raises TypeError (C45_refuted).
* **C46 Smoothing output lines up with the input samples** — False: negation. *Result:* partial: `Smooth.C46_sorted_order`, `Smooth.C46_sorted_input_partial`, `Smooth.C46_refuted`. Holds for sorted samples; for unsorted ones the output stays in sorted order (the code tests the function resample instead of xr).
* **C47 Planar mapper uv/world inverse** — Field algebra. *Result:* proved: `Map.C47_uv_xyz_uv`, `Map.C47_xyz_uv_xyz`, `Map.C47_box`. planar uv/world transforms are mutually inverse and onto the box.
* **C48 Planar mapper pixel round trip** — False: mirrored; negation and characterisation. *Result:* partial: `Map.C48_mirrored_partial`, `Map.C48_pixels_in_view`, `Map.C48_refuted`. refuted: the planar pixel round trip is mirrored in x; proved: the exact mirrored law, and every pixel ray is in view.
* **C49 Flat index and uv sampling are inverse, jitter included** — Int arithmetic; ViewMapper only for square shapes (negation otherwise). *Result:* partial: `Map.C49_planar`, `Map.C49_out_of_range`, `Map.C49_view_square_partial`, `Map.C49_view_double`, `Map.C49_refuted`. proved for planar mappers and square view grids; refuted for 2:1 view grids, with the exact result.
* **C50 View rotation** — From C36. *Result:* partial: `Map.C50_isometry`, `Map.C50_look_partial`, `Map.C50_refuted`, `Map.C50_cap_error`. rotation is an orthogonal map for every direction; the view direction goes to the centre unless it is within 3.2e-5 rad of, but not on, the vertical; refuted there with error bound.
* **C51 Angular view uv round trip** — From C23/C24/C50. *Result:* partial: `Map.C51_round_trip`, `Map.C51_round_trip_360`, `Map.C51_centre_partial`, `Map.C51_refuted`. uv round trips for all view angles; the centre claim fails in the near-vertical caps only.
* **C52 Angular view pixel round trip** — Real trig. *Result:* proved: `Map.C52_vxy_round_trip`, `Map.C52_pixel_round_trip`, `Map.C52_world_round_trip`, `Map.C52_world_pixel`. image and pixel round trips for every angular view up to 180.
* **C53 Equiangular projection law and image circle** — Real trig. *Result:* partial: `Map.C53_equiangular_partial`, `Map.C53_circle_partial`, `Map.C53_image_radius_partial`, `Map.C53_refuted`. equiangular law with the exact constant; refuted for the nominal view angle below 180.
* **C54 360 degree views are two opposite hemispheres** — Composition. *Result:* partial: `Map.C54_halves`, `Map.C54_round_trip_partial`, `Map.C54_pixels_partial`, `Map.C54_one_half_partial`, `Map.C54_any_direction`, `Map.C54_refuted`, `Map.C54_pixelrays`. two halves for every direction; round trip and pixels for directions outside the near-vertical caps of C50, and for every direction 3.3e-5 inside the circles; false on the rim for directions in the caps.
* **C55 Drawing rays into an image touches exactly their pixels** — Fold of point updates. *Result:* partial: `Map.C55_planar`, `Map.C55_angular`, `Map.C55_exact_partial`, `Map.C55_exact_planar`, `Map.C55_mask_refuted`. masks that list pixels of the image; false for masks with negative positions, which numpy counts from the end.
* **C56 Coordinate transforms do not modify their arguments** — False for vxy2xyz/tpnorm: heap model with aliasing, negation; true for the others. *Result:* partial: `Alias.C56_pure_partial`, `Alias.C56_fresh`, `Alias.C56_pixel2ray_partial`, `Alias.C56_literal_partial`, `Alias.C56_tpnorm`, `Alias.C56_vxy2xyz`, `Alias.C56_planar_vxy2xyz`, `Alias.C56_refuted`, `Alias.C56_vxy2xyz_refuted`, `Alias.C56_planar_remains`. false in general: tpnorm, tp2xyz and both vxy2xyz overwrite the caller's array (exact conditions given); the other transforms and pixel2ray are proved pure, results are new arrays. Views sharing memory are not modelled.
* **C57 Equisolid mapper round trip** — Real algebra with the 1e-9 fudge, error bound. *Result:* partial: `Map.C57_round_trip_partial`, `Map.C57_round_refuted`, `Map.C57_law_partial`, `Map.C57_equisolid_refuted`. round trip within 4e-9 rad for every view, 1e-8 of the image for view angles >= 30; refuted for tiny view angles; the projection law implemented is the inverse of the equisolid law.
* **C58 PerspectiveViewMapper is a perspective projection** — False: same formulas as equisolid; negation. *Result:* partial: `Map.C58_same_as_solid_partial`, `Map.C58_refuted`. the class is the equisolid one with an angle check; refuted at 120 degrees.
* **C59 Peak normalisation conserves energy** — Lists of rays, arbitrary sort permutation, sums. *Result:* proved: `Peak.C59_energy`. sum of weighted luminance times solid angle is unchanged, with and without keepzeros, for full, partial and blurred suns.
* **C60 Peak normalisation replaces only bright pixels near the peak** — same *Result:* proved: `Peak.C60_replaced`. includes the branch with no ray above the threshold and both values of keepzeros.
* **C61 Merged peak direction** — Vector sums, Cauchy-Schwarz. *Result:* partial: `Peak.C61_unit`, `Peak.C61_sensor_partial`, `Peak.C61_refuted`. unit vector inside the cone: proved. The bounds on a sensor fail when removed rays lie behind its plane (C61_refuted); proved when the whole cone is in front, with 1/cos(cone) for the factor.
* **C62 Stray source grouping terminates and groups disjointly** — Well-founded recursion on the remaining list. *Result:* proved: `Peak.C62_always`, `Peak.C62_terminates`, `Peak.C62_no_exception`, `Peak.C62_sizes`, `Peak.C62_secondary`. ends for every input; a ZeroDivisionError exactly when a group has no solid angle.
* **C63 Projection between angular and square images only moves pixels** — Index range lemmas from C21-C24. *Result:* proved: `Map.C63_ang2uv`, `Map.C63_uv2ang`, `Map.C63_uv2ang_360`, `Map.C63_shape`. array_ang2uv for every direction and view angle up to 180 degrees on square images; array_uv2ang for square and two to one images with its own default view; other shapes raise. Exact reals.
* **C64 imgmetric handles images without a LuminanceRGB header** — False: decision model with exceptions; negation. *Result:* partial: `Cmd.C64_type_error`, `Cmd.C64_partial`, `Cmd.C64_errors`, `Cmd.C64_ends`, `Cmd.C64_refuted`. false: without a usable entry every colour metric request ends in a TypeError (C64_type_error); the remaining decision table is proved.
* **C65 Illuminance and average luminance are linear in luminance and scale** — Finite sums. *Result:* partial: `Metric.C65_linear_partial`, `Metric.C65_scale`, `Metric.C65_nonneg`, `Metric.C65_built_nonneg`, `Metric.C65_homogeneous`, `Metric.C65_order_partial`, `Metric.C65_refuted`. additivity and order independence proved for every ray set without bright rays just outside the view edge (additivity refuted with one); homogeneity, scale and sign for every ray set.
* **C66 Contrast metrics** — Cauchy-Schwarz for finite sums. *Result:* partial: `Metric.C66_gcr_ge_one`, `Metric.C66_pwgcr_ge_one`, `Metric.C66_uniform`, `Metric.C66_black`, `Metric.C66_scale_invariant`, `Metric.C66_built_scale`, `Metric.C66_built_pwgcr`, `Metric.C66_built_partial`, `Metric.C66_refuted`. gcr >= 1 needs the view area to be the sum of the solid angles; refuted when a correction is requested but no ray lies near the edge.
* **C67 Glare sources and background partition the view** — Filter partitions. *Result:* proved: `Metric.C67_partition`, `Metric.C67_illum`, `Metric.C67_backlum`.
* **C68 Glare metrics stay in range** — Real analysis inequalities. *Result:* proved: `Metric.C68_lowlight`, `Metric.C68_dgp`, `Metric.C68_built_dgp`, `Metric.C68_ugr_ugp`, `Metric.C68_ugp_mono`.
* **C69 Solid angle correction** — Iteration with growing radius; termination by geometric growth. *Result:* partial: `Metric.C69_terminates`, `Metric.C69_corrected_partial`, `Metric.C69_uncorrected`, `Metric.C69_refuted`. termination proved for all; the sum is the view area only if some ray lies on the edge (refuted otherwise).
* **C70 Metrics flagged safe to sum are additive over sources** — Sum over append; negation for the ones that are not. *Result:* proved: `Metric.C70_additive`, `Metric.C70_irradiance`, `Metric.C70_accepts`. partial sums over groups of rays of one view with a common view area.
* **C71 Metric name validation** — List filter. *Result:* proved: `Metric.C71_check`, `Metric.C71_call`, `Metric.C71_call_base`, `Metric.C71_call_default`.
* **C72 Constructing a metric set leaves the caller's arrays alone and corrects edge rays individually** — False: negation. *Result:* partial: `Metric.C72_loop_partial`, `Metric.C72_single_partial`, `Metric.C72_caller_partial`, `Metric.C72_own_refuted`, `Metric.C72_caller_refuted`, `Metric.moved_rodrigues`. refuted for two overlapping strays (each write goes to all strays, in the caller's array); exact loop behaviour and the single stray case (overlap area as Lebesgue measure, moved direction) proved.
* **C73 Position index range and symmetry** — Real inequalities on the polynomial exponent. *Result:* partial: `Pos.C73_range`, `Pos.C73_behind`, `Pos.C73_behind_partial`, `Pos.C73_sight_partial`, `Pos.C73_mirror_partial`, `Pos.C73_refuted`, `Pos.C73_kim`. caps of 3.2e-5 rad around vertical view directions excluded; inside them the Kim index on the line of sight is not 1 (refuted).
* **C74 Retinal point spread helper functions** — Real algebra. *Result:* proved: `Retina.C74_hpsf`, `Retina.C74_inverse`, `Retina.C74_blur`, `Retina.C74_spread`, `Retina.C74_radius`.
* **C75 Retinal density symmetry and quadrant selection** — Symmetry true; quadrant selection false: negation. *Result:* partial: `Retina.C75_between`, `Retina.C75_positive`, `Retina.C75_symmetric`, `Retina.C75_vertical_partial`, `Retina.C75_refuted`. positivity, symmetry and interpolation proved; the selection of superior and inferior meridians is refuted (it tests x instead of y).
* **C76 Point spread function energy** — Algebra. *Result:* proved: `Gss.C76_sum`, `Gss.C76_pos`, `Gss.C76_kernel`, `Gss.C76_total`, `Gss.C76_blur_nonneg`, `Gss.C76_uniform`. coefficients nonnegative and summing to one, discrete kernel sums to the captured energy, the continuous spread integrates to one; blurring keeps nonnegative and uniform fields.
* **C77 Glare response stages stay in range** — Real inequalities. *Result:* proved: `Gss.C77_cone_range`, `Gss.C77_cone_mono`, `Gss.C77_cone_anti`, `Gss.C77_cone_half`, `Gss.C77_logistic`, `Gss.C77_logistic_mono`, `Gss.C77_pupil`, `Gss.C77_gss`, `Gss.C77_gss_mono`, `Gss.C77_ratio`, `Gss.C77_linear`, `Gss.C77_response`, `Gss.C77_unsaturated`, `Gss.C77_compute`. stage by stage and for the whole pipeline; gaussian filters under the Averaging contract.
* **C78 Receptive field bins cover every pixel once** — Interval partition. *Result:* proved: `Gss.C78_unique`, `Gss.C78_width`, `Gss.C78_centre`, `Gss.C78_assembled`, `Gss.C78_nearest`.
* **C79 GSS geometry is in step with its view and image** — State machine; false for view changes: negation, `_partial`. *Result:* partial: `Gss.C79_partial`, `Gss.C79_resync_partial`, `Gss.C79_pixels`, `Gss.C79_shapes`, `Gss.C79_refuted`, `Gss.C79_images_refuted`. true for square images without view changes, or after a change of size; refuted for view changes (the setter keeps the old geometry) and for histories with a failed non square image; one hemisphere only.
* **C80 Colour metrics agree with luminance metrics** — Sums. *Result:* proved: `Metric.C80_call`, `Metric.C80_irradiance`.
* **C81 metric command table is rectangular** — False for irradiance: negation, `_partial`. *Result:* partial: `Cmd.C81_cells`, `Cmd.C81_partial`, `Cmd.C81_names`, `Cmd.C81_empty`, `Cmd.C81_rectangular`, `Cmd.C81_refuted`. false with irradiance, which prints three values under one column; the content of every cell, order of rows, columns and exact widths are proved for every schedule of the pool.
* **C82 Tolerant sky bin lookup only returns nearby bins** — Same bin model; the cell set as a union of shifted lookups over the reals. *Result:* partial: `Geo.C82_refuted`, `Geo.C82_near_partial`. false near the border of the square: the tolerance wraps to the opposite border.
* **C83 Exported Radiance binning agrees with xyz2skybin** — Model of the exported expression language fragment, row by row; equality with `xyz2skybin` by cases on the sectors. *Result:* proved: `Geo.C83_cal_bin`.
* **C84 Exported Radiance patch directions agree with uv2xyz** — Same, against `uv2xyz` of `bin2uv`. *Result:* proved: `Geo.C84_cal_xyz`.
* **C85 xyz2xy is the equiangular fisheye projection** — Real trigonometry: radius is the angle over pi/2, direction kept. *Result:* proved: `Geo.C85_fisheye`, `Geo.C85_fisheye_scale`.
* **C86 The view angle is the field of view** — Edge of the image circle through `vxy2xyz`; angle by monotonicity of arccos. *Result:* partial: `Map.C86_effective_angle_partial`, `Map.C86_refuted`. the effective angle is chordFactor * viewangle, exact only at 180.
* **C87 Jittered pixel grids** — Shape calculus of the broadcast with explicit failure. *Result:* partial: `Map.C87_plain`, `Map.C87_jitter_partial`, `Map.C87_refuted`. exact shape law; jitter > 0 raises unless the frame width is 1 or 2.
* **C88 Frame size keeps the aspect ratio** — Rounding bounds over the reals. *Result:* proved: `Map.C88_framesize`, `Map.C88_box`, `Map.C88_ties`.
* **C89 Integer-valued arguments behave like their float equivalents** — Model of integer array assignment (truncation) and of the in-place type error. *Result:* partial: `Alias.C89_integer_partial`, `Alias.C89_refuted`, `Alias.C89_tpnorm_refuted`. false: tpnorm truncates into integer arrays, the angular vxy2xyz raises TypeError; proved for uv2xyz and the planar vxy2xyz.
* **C90 View area is the solid angle of the accepted rays** — Area formula against the cap of accepted rays. *Result:* partial: `Map.C90_area_partial`, `Map.C90_refuted`. area is the solid angle of the nominal cone; in_view accepts a strictly smaller cone below 180 degrees.
* **C91 transform_to moves an image from its own view to another** — `transform_to` per output pixel with an abstract interpolator. *Result:* partial: `Map.C91_swapped_partial`, `Map.C91_zoom`, `Map.C91_refuted`. false: source and destination are exchanged; the law the code satisfies is proved. RegularGridInterpolator enters through the contract NodeOk.
* **C92 The Guth/Iwata position index grows with eccentricity** — Derivative free monotonicity of the Guth/Iwata polynomial and exponent. *Result:* partial: `Pos.C92_growth_partial`, `Pos.C92_refuted`. proved outside the caps of 3.2e-5 rad around vertical view directions; false inside them.
* **C93 Ganglion cell field density at the fovea** — Monotonicity of the density formula; numeric comparison at zero. *Result:* partial: `Retina.C93_meridian_partial`, `Retina.C93_refuted`. monotonicity proved; agreement at the fovea refuted.
* **C94 Retinal densities do not depend on the dtype of the coordinates** — Model of assignment into an integer array. *Result:* partial: `Retina.C94_integer_partial`, `Retina.C94_refuted`. refuted: quotients are truncated in integer arrays; exact behaviour proved.
* **C95 Local adaptation follows the light** — Piecewise adaptation formula over the reals. *Result:* partial: `Gss.C95_partial`, `Gss.C95_mean`, `Gss.C95_between_partial`, `Gss.C95_dark`, `Gss.C95_refuted`. true for positive irradiance; refuted at zero, which is adapted as irradiance 1.
* **C96 Every square image can be loaded** — Outcome of the loader as a decision over pixels. *Result:* partial: `Gss.C96_exact`, `Gss.C96_partial`, `Gss.C96_refuted`. exact condition proved: the load fails iff no pixel with positive solid angle in the view has light; refuted by black images.
* **C97 An image without a view uses the default view** — Outcome of the constructor over an abstract file system. *Result:* partial: `Gss.C97_no_view`, `Gss.C97_cases_partial`, `Gss.C97_refuted`, `Gss.C97_other`. refuted: a missing view makes the setter look for a file called None, the image is then parsed as a view file and never loaded; the other cases are proved.
* **C98 gss_compute scores each image on its own** — Pool model of C02 with the instance as a fixed argument. *Result:* partial: `Gss.C98_partial`, `Gss.C98_values_partial`, `Gss.C98_order_partial`, `Gss.C98_refuted`. independent of workers and schedule, one score per image in the order given, each on a fresh instance, but with the view of the first image; own view refuted.
* **C99 The window of the point spread kernel** — Integrals of the spread functions (Mathlib interval integrals). *Result:* proved: `Gss.C99_surplus`.
* **C100 The pupil never opens with more light** — Derivative of the diameter as a power of the illuminance; tangent bounds of powers and exponentials settle the sign for all ages up to 38, the slope at 160 lux refutes every age from 39. *Result:* partial: `Gss.C100_partial`, `Gss.C100_age_partial`, `Gss.C100_refuted`, `Gss.C100_young_partial`, `Gss.C100_old`, `Gss.C100_years`. the claim holds for an age up to 38 and fails for every age from 39, both proved; at age 10 the formula is the reference curve.
* **C101 Position weighting of the score** — Polynomial bounds. *Result:* partial: `Gss.C101_range`, `Gss.C101_nonneg`, `Gss.C101_ecc`, `Gss.C101_partial`, `Gss.C101_refuted`. range and sign for every width; monotone beyond 0.01122; refuted near the line of sight.
* **C102 A uniform field stays uniform** — Induction through the pipeline stages. *Result:* proved: `Gss.C102_uniform`, `Gss.C102_score`.
* **C103 Which view the geometry of a GSS instance belongs to** — Invariant over histories of assignments. *Result:* proved: `Gss.C103_geometry`.
* **C104 Peak normalisation conserves every channel** — Sums over the ray list before and after. *Result:* partial: `Peak.C104_partial`, `Peak.C104_luminance`, `Peak.C104_refuted`. false: a partial sun takes the colour of its brightest ray; proved for full suns and peakc > 1, and for luminance always.
* **C105 The consolidated source is not brighter than the brightest ray** — Same model, bound on the merged radiance. *Result:* partial: `Peak.C105_partial`, `Peak.C105_refuted`. false for pixels larger than the sun; proved when no solid angle exceeds blurtol*peaka*peakc.
* **C106 Directions of secondary sources** — Convex combination of unit vectors. *Result:* partial: `Peak.C106_partial`, `Peak.C106_refuted`. false: the mean is not normalised; length at most one and inside the cone is proved.
* **C107 The LuminanceRGB header acts like explicit weights** — Decision table of the weights plus an estimate. *Result:* partial: `Cmd.C107_partial`, `Cmd.C107_avglum`, `Cmd.C107_refuted`. false for luminance metrics with numbers close to those of Radiance; there the average luminance differs by at most 0.00101 of that of the channel sum.
* **C108 imgmetric evaluates every pixel once, with the caller's options** — Row lists of the volume against the pixel grid, composed with the metric set. *Result:* proved: `Cmd.C108_rows`, `Cmd.C108_values`, `Cmd.C108_color`, `Cmd.C108_peak_off`. square images, views of one hemisphere.
* **C109 Equisolid/equiangular conversion follows the projection laws** — Model.Align arraySolid2ang on top of the view model; distance laws as real functions; circle membership through C53; refuted for 90 degrees, both directions proved at 180. *Result:* partial: `Map.C109_forward_partial`, `Map.C109_outside`, `Map.C109_reverse_partial`, `Map.C109_errors`, `Map.C109_refuted`. both directions proved for 180 degree images; C109_statement for all view angles is refuted (90 degrees).
* **C110 Rotating an image turns its content by the angle** — arrayRotate modelled as compositions of the view maps; turn law through polar form of the fisheye plane. *Result:* proved: `Map.C110_turn`, `Map.C110_array`, `Map.C110_shape`, `Map.C110_order`. every pixel, angle and resolution.
* **C111 Rotating by zero returns the image** — gridInterp models RegularGridInterpolator; identity for nearest, half-pixel mean for linear, refuted as stated. *Result:* partial: `Map.C111_nearest_partial`, `Map.C111_linear_partial`, `Map.C111_refuted`. exact for nearest; the linear method shifts by half a pixel, so the statement is refuted.
* **C112 Quarter turns permute pixels** — as C111 with the quarter turn of the square. *Result:* partial: `Map.C112_nearest_partial`, `Map.C112_refuted`. exact for nearest; refuted for linear.
* **C113 Centring moves the given point to the middle** — Rigid rotation from rmtx_yp; poles caps excluded, integer pixel positions shown clear of them up to 12000 pixels. *Result:* partial: `Map.C113_rigid`, `Map.C113_centre_partial`, `Map.C113_pixels`, `Map.C113_bad_centre`, `Map.C113_refuted`. exact outside small caps at the zenith and for every whole-pixel centre up to 12000 pixels; refuted inside the caps.
* **C114 Four number alignment moves the first point to the second** — two centrings composed. *Result:* partial: `Map.C114_move_partial`, `Map.C114_pixels`, `Map.C114_refuted`. as C113.
* **C115 The order option decides whether rotation or centring comes first** — both orders shown to give one composition; refuted as stated. *Result:* partial: `Map.C115_same_partial`, `Map.C115_refuted`. the option has no geometric effect: both settings read the same position.
* **C116 Rotation and alignment invent no light** — bounds of the bilinear form inside the grid, extrapolation witness outside. *Result:* partial: `Map.C116_uniform`, `Map.C116_nearest_partial`, `Map.C116_inside_partial`, `Map.C116_fill`, `Map.C116_refuted`, `Map.C116_fill_range`. uniform images stay uniform; range kept by nearest, inside the grid and with a fill value; linear extrapolation breaks it.
* **C117 Header lines are handed to the image writer unchanged** — shlex.split as a state machine over characters; induction over the text. *Result:* partial: `Shell.C117_lines_partial`, `Shell.C117_empty`, `Shell.C117_error_iff`, `Shell.C117_refuted`. Refuted for lines with single quotes. Proved: nonempty lists of lines without single quotes arrive unchanged; an empty list adds one empty line; among texts without double quotes and backslashes, writing fails exactly when the number of single quotes is odd.
* **C118 Image paths reach the Radiance tools unchanged** — the same state machine on the command with the path at its end. *Result:* partial: `Shell.C118_plain_partial`, `Shell.C118_stdin`, `Shell.C118_blank`, `Shell.C118_refuted`. Refuted for paths with blanks, which become two arguments (proved for every such path). Proved for paths of characters that are not white space, quotes or backslashes; the empty path reads standard input.
* **C119 A conversion does not write over its input** — paths as text, cut at the last dot; case analysis of the suffix. *Result:* partial: `Names.C119_project_partial`, `Names.C119_align_iff`, `Names.C119_refuted`. Proved for the three projections. Refuted for align: the output is the input exactly when no rotation and no centre are given and the path ends in .hdr.
* **C120 Converted images are written next to the original** — directory = text up to the last slash; case analysis of the path. *Result:* partial: `Names.C120_partial`, `Names.C120_refuted`. Refuted for run.1/img. Proved whenever the file name has a dot or the directory has none.
* **C121 Different inputs are converted to different files** — cancellation of the common suffix. *Result:* partial: `Names.C121_partial`, `Names.C121_refuted`. Refuted for a.hdr and a.pic. Proved for paths with the same extension.
* **C122 Different alignments of one image are written to different files** — decimal printing with its inverse; the parts of the suffix are read back. *Result:* partial: `Names.C122_partial`, `Names.C122_target`, `Names.C122_short_centre`, `Names.C122_refuted`. Refuted for angles with the same whole degrees; targets of four number centres are not in the name. Proved for whole angles and centres of two numbers; shorter centres raise IndexError.
* **C123 A batch of conversions is independent of the schedule** — conversions as small programs on a store of files, schedules as event lists; an invariant of every conversion, kept by every event when outputs differ from each other and from inputs; refuted for an image and its own output in one batch; instances for the three commands from their naming rules. *Result:* partial: `Files.C123_partial`, `Files.C123_can_end`, `Files.C123_refuted`, `Conv.C123_project`, `Conv.C123_solid2ang`, `Conv.C123_align`. Proved when outputs differ from each other and from all inputs, which the naming rules give for different images s.hdr whose names do not end like an output; refuted for an image and its own output in one batch.
* **C124 A failed or interrupted conversion leaves the files alone** — same store; what a failed conversion has left is read off its invariant; refuted: the output is opened before the header is cleaned, so an error there leaves an empty file, for align without options the emptied input. *Result:* partial: `Files.C124_others_untouched`, `Files.C124_failure_partial`, `Files.C124_reading`, `Files.C124_stdout`, `Files.C124_own_input_lost`, `Conv.C124_refuted`. Other files are never touched; the output is as before or empty; refuted with align on a header that cannot be cleaned.
* **C125 The header of a converted image describes the image** — getinfo text, its lines, clean_header (C13), the command line (C117) and the reading of views (C17) composed; the exact view written is proved for each conversion; refuted since ang2uv keeps the angular view. *Result:* partial: `Conv.C125_uv2ang`, `Conv.C125_ang2uv`, `Conv.C125_rotate`, `Conv.C125_clean_partial`, `Conv.C125_solid`, `Conv.C125_solid_read`, `Conv.C125_refuted`. The exact view written is proved for every conversion of headers without single quotes; refuted: square images keep the angular view, equisolid ones get one along y.
* **C126 solid2ang uses the view size of the header** — composition with the reading of views; refuted for views that are not angular, proved for angular ones. *Result:* partial: `Conv.C126_partial`, `Conv.C126_explicit`, `Conv.C126_default`, `Conv.C126_refuted`. Holds for angular views; the size of other views is ignored.
* **C127 hdr_header returns the header** — splitlines and strip on the text of getinfo, line by line; exact set of lines returned; refuted for lines that contain the word RADIANCE. *Result:* partial: `Conv.C127_lines`, `Conv.C127_partial`, `Conv.C127_missing`, `Conv.C127_refuted`. Exact lines proved; refuted: lines with the word RADIANCE are dropped.
* **C128 project uses the view of the header** — composition of the reading of views with the conversion; refuted for views that are not angular, proved for angular ones down to the written image. *Result:* partial: `Conv.C128_partial`, `Conv.C128_unused`, `Conv.C128_default`, `Conv.C128_missing`, `Conv.C128_written`, `Conv.C128_refuted`. False for views that are not angular; proved for angular ones.
* **C129 Cleaning a header twice is cleaning it once** — headers as printed trees of sections: an induction over the tree with a zipper shows that reading one rebuilds it; refuted for repeated lines in one section. *Result:* partial: `Header.C129_partial`, `Header.C129_refuted`. False for repeated keys in a section; proved for headers that are trees without repetitions.
* **C130 Cleaning a header comes to an end** — textwrap of Python 3.11 modelled with a number of rounds; decreasing measure when the indentation of continued lines fits, an invariant (the list of chunks never gets empty) when it does not; refuted by a command of more than 150 characters with its first = behind column 148; exact condition proved. *Result:* partial: `Textwrap.C130_wrap`, `Textwrap.C130_iff`, `Textwrap.C130_partial`, `Textwrap.C130_refuted`. False: the exact condition is C130_iff; C130_partial gives one on the input lines.
* **C131 Lines of a cleaned header are at most 150 characters long** — width of the lines of the model of textwrap by induction on its rounds; bound on the indentation by an invariant of the lines read; refuted for long view lines and for keys of exactly 148 characters. *Result:* partial: `Textwrap.C131_wrap`, `Textwrap.C131_entries`, `Textwrap.C131_partial`, `Textwrap.C131_refuted`, `Textwrap.C131_one_more`. False for view lines and for very long keys; proved otherwise.
* **C132 A cleaned header reads like the header itself** — lines broken at white space are groups of whole chunks, put together again by the rule for repeated keys; induction over the chunks and over the blocks of lines; refuted by words broken at a hyphen. *Result:* partial: `Header.C132_partial`, `Header.C132_refuted`, `Header.rewrap`. False as stated: textwrap breaks words at hyphens (C132_refuted). Proved for headers of key=value lines whose entries can be joined again (Rejoins).
* **C133 Values stay with their keys** — induction over blocks of lines with one key; refuted: after a repeated line, the next line of its key is added to whatever entry is last. *Result:* partial: `Header.C133_partial`, `Header.C133_refuted`. False as stated: C133_refuted. Proved for headers where the lines of a key stand together.
* **C134 smooth without y prints a probability density** — SmoothCmd.density: mixture of normal densities; Mathlib's gaussianPDFReal gives integral 1; error iff cov = 0 *Result:* proved: `SmoothCmd.C134_density`, `SmoothCmd.C134_raises`. exact reals; widths of 0 are refused by gaussian_kde and excluded.
* **C135 smooth does not depend on the unit of x** — affine law of the filter by induction over the samples (partial); refuted for densities: gaussian_kde takes the width as a factor of the standard deviation, so the variance enters twice (C135_width) *Result:* partial: `SmoothCmd.C135_partial`, `SmoothCmd.C135_width`, `SmoothCmd.C135_default`, `SmoothCmd.C135_sigma`, `SmoothCmd.C135_refuted`, `SmoothCmd.cov_pairs`. proved for y columns; false for densities: the default width of a density is variance * n^-0.2, so it depends on the unit of x.
* **C136 smooth does not depend on the origin of x** — affine law with factor 1 *Result:* proved: `SmoothCmd.C136_shift`. both branches, given and default width.
* **C137 the order of the rows does not matter to smooth** — sums over rows are invariant; partial for positive widths and densities; refuted when all x are equal: the first row is printed *Result:* partial: `SmoothCmd.C137_partial`, `SmoothCmd.C137_refuted`. proved for densities and positive widths; false when all x are equal, where the first row is printed.
* **C138 smooth reads the named columns** — load and choose; partial for files of two or more rows; refuted for files of one row, which loadtxt squeezes into a column (C138_row) *Result:* partial: `SmoothCmd.C138_partial`, `SmoothCmd.C138_row`, `SmoothCmd.C138_refused`, `SmoothCmd.C138_empty`, `SmoothCmd.C138_refuted`. proved for two or more rows; false for one row, which is read as a column.
* **C139 where smooth prints values** — printed x = linspace of least and largest *Result:* proved: `SmoothCmd.C139_points`, `SmoothCmd.C139_given`, `SmoothCmd.C139_runs`, `SmoothCmd.C139_none`. for runs that succeed; C139_runs shows they do for positive widths.
* **C140 smooth prints weighted averages of the column** — filter without bandwidth = kernel average, positive weights never take the fall back *Result:* proved: `SmoothCmd.C140_values`, `SmoothCmd.C140_bounds`. exact reals: weights do not underflow.
* **C141 how init_img reads the name of a projection** — character level case analysis of the selecting letter *Result:* proved: `Init.C141_documented`, `Init.C141_refused`, `Init.C141_letter`, `Init.C141_stable`.
* **C142 init_img returns one vector per pixel** — case split on the projection; refuted for the equisolid projection of a 360 degree view *Result:* partial: `Init.C142_partial`, `Init.C142_refuted`. holds for the angular and square projections and for equisolid images of views other than 360 degrees; false for the equisolid projection of a 360 degree view.
* **C143 the mask of init_img is the view** — row order and membership by induction over the cells; circle criterion from the angular radius law *Result:* partial: `Init.C143_mask`, `Init.C143_solid_mask`, `Init.C143_circle_partial`, `Init.C143_refuted`. membership, order and the boolean form for every view; the circle criterion for angular images of ViewMapper with directions clear of the axis tolerance; refuted for nearly vertical directions, where a narrow view leaves out its own centre pixel.
* **C144 the colour mask of init_img addresses pixel and channel** — tile and repeat evaluated position by position, sequential assignment over distinct targets *Result:* proved: `Init.C144_channels`.
* **C145 the header of an angular init_img image describes its vectors** — C17 for the angular mapper; refuted for the equisolid mapper *Result:* partial: `Init.C145_header_partial`, `Init.C145_refuted`. holds for ViewMapper including 360 degree views; false for SolidViewMapper, whose default header says -vta.
* **C146 the square image of init_img has one vector per square of the mapper** — round trip of the square map at cell centres *Result:* proved: `Init.C146_square`.
* **C147 the equisolid methods of an angular mapper** — reduction to C57; the 360 degree part is refuted: rays behind give nan *Result:* partial: `Init.C147_same`, `Init.C147_pixel_round_trip`, `Init.C147_image`, `Init.C147_behind_partial`, `Init.C147_refuted`. views up to 180 degrees proved (round trip up to two million pixels per degree); for 360 degree views directions within 45 degrees of the back give nan.
* **C148 init_img of a planar mapper** — C48 position by position; the mask holds positions of the flattened image, so indexing the image with it is refuted *Result:* partial: `Init.C148_flat_partial`, `Init.C148_index_partial`, `Init.C148_refuted`. vectors and mask of the flattened image proved; indexing the image with the mask raises IndexError for two or more columns.
* **C149 no pixel is given a larger solid angle than the centre pixel** — law of cosines on the sphere against the plane (convexity of cos of a square root), then Cauchy-Schwarz for the cross product *Result:* proved: `Map.C149_bound`, `Map.C149_centre`. views up to 180 degrees; resolutions below four pixels only for views up to 90 degrees.
* **C150 the eye's blur of a point is symmetric** — symmetry of the entries; for odd windows the middle entry is the strict maximum (C149); for even windows symmetric iff the entries already sum to the captured energy, refuted by a two pixel window *Result:* partial: `Gss.C150_odd_partial`, `Gss.C150_even_partial`, `Gss.C150_refuted`. proved for odd windows; for even windows all of the correction goes to one of the four central pixels.
* **C151 the eye's blur has the scale of the image** — equiangular law for both views: the ratio is that of the chord factors; refuted for a 180 degree image *Result:* partial: `Gss.C151_scale_partial`, `Gss.C151_refuted`. the kernel is smaller by the ratio of the chord factors, about 0.9 for the default 10 degree window of a 180 degree image.
* **C152 a cleaned header can be cleaned again** — the first visible character of entries as an invariant of the run; a wrapped entry without '=' refutes the full claim *Result:* partial: `Textwrap.C152_partial`, `Textwrap.C152_refuted`. false: a long line without '=' that is wrapped behind a colon makes the second cleaning raise IndexError; proved for headers without blank lines and leading dots whose long entries have a key.
* **C153 Physical laws of the eye** — Mathlib's volume of discs; homogeneity; rpow calculus and limits *Result:* proved: `Gss.C153_area`, `Gss.C153_scale`, `Gss.C153_exposure_size`, `Gss.C153_exposure`, `Gss.C153_half_dark`, `Gss.C153_adapted`, `Gss.C153_bright`. exact reals; the area for ages up to 56, where the diameter is positive.
* **C154 Field widths depend on the direction only** — widths compared with a specification in degrees within 2e-6 for views of 180 degrees; refuted for other view angles: image coordinates are used as if the view showed 180 degrees *Result:* partial: `Gss.C154_partial`, `Gss.C154_stretched`, `Gss.C154_refuted`. proved for views of 180 degrees; false for smaller views, where angles are stretched as if the view showed 180 degrees.
* **C155 An output comes from one version of its input** — invariant of one conversion over all schedules when nobody writes its input; refuted when an input is the output of another conversion: pixels of the old version, header of the new one *Result:* partial: `Files.C155_partial`, `Conv.C155_torn`, `Conv.C155_refuted`. proved when no conversion of the batch writes the input; false otherwise.
* **C156 Header lines indented with spaces are nested like lines indented with tabs** — insets as runs of spaces separated by tabs (every text of spaces and tabs is one), the depth by strong induction on the run length, then induction over the lines of the file. *Result:* proved: `Header.C156_depth`, `Header.C156_clean`, `Header.C156_same`, `Header.insetText_all`. insetText_all: every text of spaces and tabs is an inset of the statement.
* **C157 The blurs of the eye model are fixed in degrees and narrow with light** — the filter is replaced by one taking degrees; each stage is rewritten and composed to the score. *Result:* proved: `Gss.C157_degrees`, `Gss.C157_score`, `Gss.C157_brighter`.
* **C158 Sums over the pixels of a view tend to integrals over its directions** — the sum is a Riemann sum over the angular image; the cross product of the pixel's diagonals divided by its area tends to the Jacobian of the angular projection; dominated convergence, then polar coordinates. *Result:* proved: `Map.C158_limit`, `Map.C158_area`, `Map.C158_cosine`, `Gss.C158_eye`, `Gss.C158_eye_uniform`. angular images of ViewMapper over the reals.
* **C159 The metrics of an image tend to those of the scene it shows** — C158 for the uncorrected sums; the correction changes a sum by at most the excess times the bound of the summand, which vanishes at 180 degrees; below 180 degrees no pixel of a fine image is at the nominal edge, so nothing is corrected and the average is taken over too large an area. *Result:* partial: `Cmd.C159_illum`, `Cmd.C159_average`, `Cmd.C159_uniform`, `Cmd.C159_partial`, `Cmd.C159_low`, `Cmd.C159_refuted`, `Cmd.C159_command`. the limits are proved for every view; they are those of the scene for 180 degrees, and too low for every narrower view (C159_low, C159_refuted).
* **C160 Averages of a metric set lie between the extremes of the scene** — weighted means of a list by induction; positivity of the position index (C73). *Result:* proved: `Metric.C160_between`, `Metric.C160_uniform`. on a constructed metric set; avglum when the area is the sum of the solid angles (the other case is C159).
* **C161 Sources and position weights of the glare formulas** — sums over filtered lists; scaling of every stage; inversion of the logarithm. *Result:* proved: `Metric.C161_weight`, `Metric.C161_bounds`, `Metric.C161_one`, `Metric.C161_relative`, `Metric.C161_absolute`, `Metric.C161_uniform`, `Metric.C161_units`, `Metric.C161_dgp`. on a constructed metric set; bounds for the Guth index.
* **C162 The light that reaches the retina** — The disc area is the Lebesgue measure of a set of points of the plane; the flux law is stated from solid angle and focal length only; the pupil law is a closed form of the width at age ten; the bound for a uniform field chains C102 with the fact that half saturation exceeds the adapting irradiance. *Result:* proved: `Gss.C162_open`, `Gss.C162_disc`, `Gss.C162_flux`, `Gss.C162_pupil`, `Gss.C162_symmetric`, `Gss.C162_half`, `Gss.C162_above`, `Gss.C162_adapted`, `Gss.C162_uniform`. Pupil widths are positive up to an age of 126, which the disc law assumes. The closed form of the width is for age ten. The filter is under the contract Averaging.
* **C163 The pixel round trip survives rounding** — The functions are written again with every operation a rounded one, under a contract of relative errors; exact arithmetic gives back the exact model. The angular projection is shown to be Lipschitz (factor 3 for unit vectors up to 2.25 rad from the axis), the loss of sqrt(1 - z*z) is at most the square root of the error of z*z, and the errors of all steps are added up. *Result:* proved: `Fp.C163_position`, `Fp.C163_round_trip`, `Fp.C163_rotations`, `Fp.C163_mapper`, `Fp.C163_exact`, `Fp.C163_binary64`. Contract Arith.Ok: relative errors of the operations, no overflow or underflow; round to nearest even meets it. viewangle * chordfactor at most 180.0001 as stored. 360 degree views are not covered.
* **C164 Cell indices survive rounding** — Rounded operations under the contract of C163: three roundings move a cell coordinate by less than 1e-15 times the index, so the index is kept when the offset leaves that margin (the default offset of one half always does). Round to nearest even with 53 bits is defined and shown to meet the contract; in it the lower corner (offset 0) is exact for sides that are powers of two and fails for side 23 (C164_refuted), and a jitter rate of one fails (C164_idx_refuted). *Result:* partial: `Fp.C164_bins_partial`, `Fp.C164_centre`, `Fp.C164_power_of_two`, `Fp.C164_exact`, `Fp.C164_refuted`, `Fp.C164_idx_partial`, `Fp.C164_full_jitter`, `Fp.C164_idx_refuted`, `Fp.C164_rows`. Offsets that leave a margin of rounding to the border of the cell. False for offset 0 in binary64 (side 23) and for a jitter rate of one.
* **C165 Metrics are accurate up to rounding in any order** — A relation says that a number is a rounded sum of a list with at most k additions behind each other, in any order; induction over it bounds the error by ((1+u)^k - 1) times the sum of absolute values. Products, scale and quotients are added as relative errors. The sign of the background luminance is refuted in binary64 (C165_refuted): one large and three small sources beside a black ray. *Result:* partial: `Fp.C165_illum`, `Fp.C165_order`, `Fp.C165_avglum`, `Fp.C165_gcr`, `Fp.C165_gcr_ge`, `Fp.C165_backlum_partial`, `Fp.C165_refuted`. Errors proved for every order of the additions under the contract of C163. False for the sign of the background luminance, which is a difference of two sums. The selection of rays is that of the constructed set; no fused operations.
* **C166 Pixel rays are unit vectors up to rounding** — The computed factor √(1 - z z) / d cancels against d whatever the error of z, so only the relative errors of eight operations remain. The stored matrices have rows orthonormal up to 1e-14; each rotation adds that and the error of a product. *Result:* proved: `Fp.C166_view`, `Fp.C166_ray`, `Fp.C166_unit`. One hemisphere (aspect 1); contract Arith.Ok, met by binary64.
* **C167 Angles of normalised vectors are numbers** — Rounding to nearest even is monotone and the root of the rounded square of a double is the double (binary, 53 bits), so the computed length is at least every component. The product of a normalised vector with itself can be 1 + 2^-52, so the clipping is needed (C167_clip_needed). *Result:* proved: `Fp.C167_norm`, `Fp.C167_norm1`, `Fp.C167_pitch`, `Fp.C167_tau`, `Fp.C167_radians`, `Fp.C167_clip_needed`, `Fp.C167_raw`. binary64 with unbounded exponent; squares summed from left to right.
* **C168 The calls a batch makes, under every schedule** — Log of starts and ends of the scheduler model of C03; counting invariant per argument by induction over the events. The clause about exceptions is refuted by a schedule: the context manager is the progress bar, which closes without shutting the executor down, so submitted calls still run after the exception has reached the caller. The loop without executor (cap 1 without workers) is proved to stop at the first failure; which `workers` values select threads, processes or the loop is proved exactly. *Result:* partial: `Pool.C168_once_partial`, `Pool.C168_cap`, `Pool.C168_returned`, `Pool.C168_all_run`, `Pool.C168_refuted`, `Pool.C168_loop`, `Pool.C168_modes`. All clauses hold under every schedule except the last: calls already submitted can begin after the exception has been raised, and all of them run in the end (C168_refuted, C168_all_run).
* **C169 Metrics are numbers** — The metrics once more over numbers with infinities and nan. Case analysis gives the exact conditions for nan, infinity and number of every metric; where they are numbers they equal the metrics over the reals, so C65 to C70 and C160, C161 apply. Refuted by a black view. *Result:* partial: `Metric.C169_numbers_partial`, `Metric.C169_contrast`, `Metric.C169_weighted`, `Metric.C169_empty`, `Metric.C169_avgraylum`, `Metric.C169_sources`, `Metric.C169_dgp`, `Metric.C169_ugr`, `Metric.C169_black`, `Metric.C169_dark_surround`, `Metric.C169_behind`, `Metric.C169_refuted`. False for dark scenes (C169_refuted). Proved: the exact conditions under which each metric is a number, infinite or nan; all are numbers when light arrives, part of it from the background, and a ray lies in the task area.
* **C170 Forms of the consolidated peak** — The result as one of four forms with the arrays and the shape numpy gives them. Agreement of the forms and the energy from C59; exact shape for every number of rays left; refuted for images without bright pixels, where the peak is a flat array of zeros and the secondary sources are None, and for a single ray, which loses its axis. *Result:* partial: `Peak.C170_agree_partial`, `Peak.C170_shape`, `Peak.C170_count`, `Peak.C170_none`, `Peak.C170_refuted`. The full statement is false (C170_refuted): no bright pixel gives zeros and None. Proved: the forms agree and conserve energy with a bright pixel, the exact shape and number of rays in every case, the exact result without one.
* **C171 Metrics do not depend on the compass** — View coordinates of a direction that is not vertical are products with the direction, the vertical and their cross product, so a turn leaves them and a mirroring changes the sign of x only. The edge rays are moved by Rodrigues' formula, which commutes with both. Then selection, correction and every metric. Refuted for a view straight up, whose upper edge is fixed to the compass; there the metrics without a position index still agree. *Result:* partial: `Metric.C171_compass_partial`, `Metric.C171_unweighted_partial`, `Metric.C171_colour_partial`, `Metric.C171_refuted`. The full statement is false for vertical views (C171_refuted). Proved for every direction at least 0.002 degrees from vertical, for plain and for colour sets, and for the metrics without position index for every direction; rays across the edge of the view may not lie within 0.002 degrees of the level through the view direction unless exactly in it.
* **C172 Metrics do not depend on how finely rays are cut** — Cutting is an inductive relation on lists, kept by normalisation and by every selection that looks at direction and luminance only; the sums are proportional to solid angle. Refuted with the solid angle correction: it starts at 101 rays, so cutting one of a hundred rays changes the view area. *Result:* partial: `Metric.C172_cut_partial`, `Metric.C172_colour_partial`, `Metric.C172_refuted`. The full statement is false with the solid angle correction, which starts at 101 rays (C172_refuted). Proved for every view, set of rays and way of cutting when solid angles are used as given, for plain sets and for colour sets with the irradiance of each channel.
* **C173 A metric set is a snapshot of what it was made from** — memory as a map from references to contents, metric sets as references, caches from Model/Cache; invariant by induction over the history: what is remembered about the set is what the formulas give for its data. Refuted as stated (the mapper is shared, and for 360 degrees the arrays). *Result:* partial: `Live.C173_snapshot_partial`, `Live.C173_snapshot_full_partial`, `Live.C173_refuted`, `Live.C173_mixed`. Refuted as stated: a metric set keeps the caller's mapper (turning it afterwards turns the illuminance, C173_refuted), and for 360 degree views the caller's luminances and solid angles (C173_mixed: 18 lux read together with average luminance 0). Proved for every program that leaves the mapper alone (view < 360) or mapper, luminances and solid angles (360). Formulas are arbitrary functions over the code's dependency graph.
* **C174 Assigning an attribute of a metric set takes effect** — same model; an if and only if for every state, a positive theorem for sets not read yet, refutation by scale. *Result:* partial: `Live.C174_exact_partial`, `Live.C174_unread_partial`, `Live.C174_corrected`, `Live.C174_refuted`, `Live.C174_evicted`. Refuted as stated: a metric that was read is remembered across assignments. Proved: reads are current if and only if everything remembered still is; and always before the first read of a set without corrected solid angles (with correction the constructor itself reads the angles, which then stay: C174_corrected).
* **C175 A mapper follows the direction and the aspect assigned to it** — mapper object with stored opposite view, assignments as steps, invariant by induction over the history; exact description of when the opposite view is missing; refutation by aspect = 2. *Result:* partial: `Map.C175_new`, `Map.C175_directions`, `Map.C175_own_direction`, `Map.C175_exact_partial`, `Map.C175_refuted`. Directions: proved for all histories (the object is equal in every attribute). Directions and aspects: exact; refuted as stated, since assigning aspect 2 does not make the opposite view. The attribute bbox is not followed (it is read by no method).
* **C176 Writing an image finishes with the whole picture under every schedule** — three processes and two bounded pipes as a step function; conserved quantity (text still to come) and decreasing measure; progress by cases; fairness argument; deadlock as an invariant for short arrays; refutation by one pixel with one channel. *Result:* partial: `Pipes.C176_partial`, `Pipes.C176_arrays_partial`, `Pipes.C176_only`, `Pipes.C176_hangs`, `Pipes.C176_channels`, `Pipes.C176_short`, `Pipes.C176_surplus`, `Pipes.C176_four_channels`, `Pipes.C176_refuted`. False for arrays with a number of channels other than three: exact behaviour given (never returns, incomplete file, schedule dependent exception). Proved for two dimensional and three channel arrays under every fair schedule and all pipe capacities. The programs are arbitrary filters that read what they announce.
* **C177 Reading an image or its header finishes under every schedule** — a printing program, two bounded pipes and a reader as a step function; conservation of both texts, decreasing measure, progress iff the messages fit; deadlock as an invariant otherwise. *Result:* partial: `Pipes.C177_partial`, `Pipes.C177_hangs`, `Pipes.C177_header`, `Pipes.C177_refuted`. Pixel readers end exactly when the messages on the error stream fit into its pipe; refuted otherwise. Reading headers is proved to end always.
* **C178 Sky coordinates survive the round trip in rounded arithmetic** — operation by operation in an arithmetic with a relative error bound; the disk to square map is 3-Lipschitz, so errors of the disk point are harmless also at the branch cuts; sector decisions near a boundary agree with the neighbouring formula up to the error; IEEE doubles and exact reals satisfy the contract; the loss at the edge computed in doubles. *Result:* partial: `Fp.C178_upper`, `Fp.C178_both_partial`, `Fp.C178_patches`, `Fp.C178_binary64`, `Fp.C178_exact`, `Fp.C178_edge`, `Fp.C178_refuted`. Round trips in rounded arithmetic; the strip of 1e-14 at the edge of the lower square is excluded because the claim fails there (C178_edge, C178_refuted).
* **C179 Neighbouring directions have neighbouring coordinates and back** — boundary of the square as a periodic 1-Lipschitz curve and its inverse estimate; polar form; the scale between sphere and disk; triangle inequality across u = 1; witnesses at the horizon. *Result:* proved: `Geo.C179_near`, `Geo.C179_back`, `Geo.C179_join`, `Geo.C179_horizon`. Exact real arithmetic.
* **C180 Directions survive the round trip through coordinates in rounded arithmetic** — forward errors of both maps against the exact ones, with the exact maps Lipschitz (C179) a little beyond the rectangle; nearest point of the rectangle; exact round trip (C23, C25). *Result:* proved: `Fp.C180_direction`, `Fp.C180_sky`. Default axes, normalize=False; no overflow or underflow in the contract.
* **C181 Smoothing with a median or quantiles** — Model/SmoothQ: relation of possible outcomes for an array of quantiles (one index past the end switches all of them), the per point call and apply_along_axis; reduce the array to single quantiles (C41, C42), the fall back to C45. False for several features (IndexError), which is refuted. *Result:* partial: `Quant.C181_together`, `Quant.C181_empty`, `Quant.C181_any_refuted`, `Smooth.C181_refused`, `Smooth.C181_point`, `Smooth.C181_exists`, `Smooth.C181_between_partial`, `Smooth.C181_returns_partial`, `Smooth.C181_places_partial`, `Smooth.C181_features`, `Smooth.C181_refuted`. Holds for one feature. With several features a median or a single quantile raises IndexError although the documentation allows it (C181_refuted). Several quantiles in one call equal single calls for thresholds of at least 0; with a negative threshold one quantile can change the others (C181_any_refuted).
* **C182 Smoothing while resampling keeps the mean and the range** — Model `Gauss.gaussianFilter` (scipy.ndimage.gaussian_filter, mode reflect, truncate 4: normalised exponential kernel, one axis after the other) and use it as the parameter `gf` of the model of `resample`. The reflected line has period 2n and mirror symmetry, so shifts by k and -k together read every entry twice; with the symmetric kernel the sum of a line is kept (`line_sum`), induction over axes gives `C182_filter`, then `C182_enlarge`, `C182_same`. For the box filter (gauss=False) the same holds for odd sizes (`C182_box_partial`); with an even size scipy's box is not centred and the mean changes: `C182_refuted` (0, 1 smoothed with radius 2 gives 0, 1/2). *Result:* partial: `Gauss.C182_filter`, `Gauss.C182_enlarge`, `Gauss.C182_same`, `Gauss.C182_box_partial`, `Gauss.C182_refuted`. Proved for the Gaussian with any radius, any number of axes and any sizes, and for the box filter of odd size. The full statement is false: an even box size (radius 2) is not centred and changes the mean (C182_refuted).
* **C183 The blurs of the eye neither make nor lose light and keep points in place** — `Gauss.blur2` is gaussian_filter of an n by m image; `C183_averaging` proves the contract `Gss.Averaging` assumed elsewhere, `C183_total`, `C183_movement` the totals. `Gauss.src` gives the pixels scipy's convolve reads (mode reflect, offset w//2 - a). `C183_convolve`: total scaled by the kernel sum for odd symmetric kernels; `C183_psf_odd_partial` for the kernel of apply_psf; `C183_point` the image of a point; `C183_point_odd_partial` centred for odd windows. For even windows the kernel is centred half a pixel too early (`C183_point_even_partial`) and the claim is refuted (`C183_refuted`). *Result:* partial: `Gauss.C183_averaging`, `Gauss.C183_total`, `Gauss.C183_movement`, `Gauss.C183_convolve`, `Gauss.C183_psf_odd_partial`, `Gauss.C183_point`, `Gauss.C183_point_odd_partial`, `Gauss.C183_point_even_partial`, `Gauss.C183_spread`, `Gauss.C183_refuted`. The contract of gaussian_filter and the totals are proved for all images; the point spread keeps light and place for windows with an odd number of pixels. For even windows a point is displaced (C183_refuted), so the full statement is false.
* **C184 Moving an image between views keeps its values** — `centreInterp` is RegularGridInterpolator on the pixel centres with fill_value=None (both methods), the parameter `interp` of the model of transform_to. `C184_node` proves the contract used by C91, `C184_self` the move to the own view, `C184_nearest_partial`, `C184_linear_partial` (read inside the square of pixel centres), `C184_even`. The full claim is false with linear interpolation: in the border it extrapolates, and a nonnegative image gets a negative value (`C184_refuted`). *Result:* partial: `Map.C184_node`, `Map.C184_self`, `Map.C184_nearest_partial`, `Map.C184_linear_partial`, `Map.C184_even`, `Map.C184_refuted`. With nearest for all views and images; with linear interpolation where the position read is not in the outer half of a border pixel. Elsewhere values are extrapolated and the claim is false (C184_refuted).
* **C185 The ganglion cell density is the measured one** — The four tables are transcribed digit by digit into rationals and `npInterp` is np.interp by recursion over a table; all theorems about it are by induction over any increasing table (`interp_node`, `interp_bounds`, `interp_continuous`, `interp_monotone`, `interp_antitone`), the facts about the four tables themselves by the kernel. `C185_measured_partial`, `C185_range`, `C185_continuous`, `C185_peak`, `C185_binocular`. False in two points: the outermost inferior measurement is below one and is returned as one (`C185_refuted`), and at the fovea each meridian returns its own first measurement (`C185_fovea_refuted`). *Result:* partial: `Retina.C185_measured_partial`, `Retina.C185_range`, `Retina.C185_continuous`, `Retina.C185_peak`, `Retina.C185_binocular`, `Retina.C185_refuted`, `Retina.C185_fovea_refuted`. Measurements of at least one cell. False for the outermost inferior measurement (0.68 becomes 1) and for agreement at the fovea.
* **C186 Conversions use complete pictures only, whatever happens to their input** — A conversion is a function of the list of what its processes saw (Model/Convert.lean). For every list, `C186_uv2ang`, `C186_ang2uv`, `C186_solid`, `C186_rotate` and `C186_clean` say from which process pixels, header and view come, and that each of them saw a complete picture; `C186_missing` an image that is gone when the view is read. That the versions can differ is C155. *Result:* proved: `Conv.C186_uv2ang`, `Conv.C186_ang2uv`, `Conv.C186_solid`, `Conv.C186_rotate`, `Conv.C186_clean`, `Conv.C186_missing`. every list of states seen by the reading processes.
* **C187 Rays drawn with grow are squares** — Model/Draw.lean has the exact index arithmetic, the box filter with reflection and the channels. `C187_angular`, `C187_planar`: which pixels are painted before the image grows. `C187_window`: away from the border growing is the sum over the window; so `C187_dots_partial` counts the dots around a pixel of a dark image and `C187_square_partial` gives squares for dots that do not overlap. `C187_total`: all light times the size of the window. The full claim is false: what the image showed before is spread and brightened (`C187_refuted`, `C187_uniform`), overlapping dots add up (`C187_overlap`), a dot in a corner is four times as bright (`C187_corner`). `C187_channels` and `paintPlanes_at` for colour. *Result:* partial: `Map.C187_angular`, `Map.C187_planar`, `Map.C187_window`, `Map.C187_dots_partial`, `Map.C187_square_partial`, `Map.C187_total`, `Map.C187_uniform`, `Map.C187_overlap`, `Map.C187_corner`, `Map.C187_channels`, `Map.C187_planes`, `Map.C187_planes_planar`, `Map.C187_refuted`. squares for dots that do not overlap on a dark image away from the border; false otherwise; channels proved in full.
* **C188 plot shows every ray of the view** — `C188_pixel`: a ray whose pixel is in the image is seen there, for every grow; `C188_seen_partial`: all rays of views of up to 180 degrees. False for 360 degree views: the image has the size of one half, rays behind are dropped (`C188_back`, `C188_refuted`). *Result:* partial: `Map.C188_pixel`, `Map.C188_seen_partial`, `Map.C188_back`, `Map.C188_refuted`. views of up to 180 degrees; false for 360 degree views.
* **C189 imgmetric evaluates every image with a view** — Model/Shapes.lean has the three arrays of `hdr2vol` for any size and both kinds of views, and the places of the constructor and of the attributes where arrays of different lengths meet. `C189_lengths`, `C189_aligned`: the arrays belong together exactly for square pictures of one hemisphere. `C189_square_partial`: there the model is the one of C64, C107, C108, so metrics are returned (`C189_ends_partial`). False otherwise (`C189_refuted`): `C189_both` (always a ValueError from 8 rows on), `C189_both_small`, `C189_rectangle` (ValueError if there is light), `C189_dark` (a dark rectangle gets the metrics of a dark square). *Result:* partial: `Cmd.C189_lengths`, `Cmd.C189_aligned`, `Cmd.C189_square_partial`, `Cmd.C189_ends_partial`, `Cmd.C189_both`, `Cmd.C189_both_small`, `Cmd.C189_rectangle`, `Cmd.C189_dark`, `Cmd.C189_refuted`. square pictures of one hemisphere; false for all others.
* **C190 The printed table can be read back** — Model/Table.lean has the `.06g` format on rational numbers (correct rounding to six digits, carry to the next power of ten, fixed or scientific notation, dropped zeros) and the text of the table; Spec/Decimal.lean is a reader of decimal notation that shares nothing with it. `C190_digits`, `C190_order`, `C190_exact`, `C190_special` for cells, `C190_table_partial` for the table with image names without tabs and newlines; with a tab in a name it is false (`C190_refuted`). *Result:* partial: `Tab.C190_digits`, `Tab.C190_order`, `Tab.C190_exact`, `Tab.C190_special`, `Tab.C190_table_partial`, `Tab.C190_refuted`. cells for every number; the table for image names without tabs and newlines, false otherwise; irradiance has three cells per line under one name (C81).
* **C191 Every response image is saved under the name of its image** — Model/GssSave.lean has the names and the tasks as programs on the files of Model/Files.lean. `C191_partial`: true when the names of the responses differ from each other and from the images; `C191_beside`, `C191_outdir`, `C191_not_itself` say when they do. False in general (`C191_refuted`: images of the same name in two directories); `C191_both`: of the two models' responses only those of gssnb are left. *Result:* partial: `GssSave.C191_partial`, `GssSave.C191_beside`, `GssSave.C191_outdir`, `GssSave.C191_not_itself`, `GssSave.C191_both`, `GssSave.C191_refuted`. when the names of the responses differ from each other and from the images; false otherwise, and false for gss together with gssnb.
* **C192 The view of an image is the one in its header** — Spec/OwnView.lean has Radiance's rule. `C192_exact`: the words used are those behind the last occurrence of the marker in the last line that has one, whatever else is in the header. `C192_partial`: the claim holds when the last view line is angular and no later line has the marker, and when no line has it. False in general (`C192_refuted`: an image reprojected to a perspective view); `C192_foreign`: an indented or older view wins; `C192_cannot_open`: a header with these words is reported as a missing file. *Result:* partial: `ViewHdr.C192_exact`, `ViewHdr.C192_none`, `ViewHdr.C192_partial`, `ViewHdr.C192_foreign`, `ViewHdr.C192_cannot_open`, `ViewHdr.C192_refuted`, `ViewHdr.C192_line_end`. exact rule for every header; the claim holds when no line behind the own view has the marker of an angular view; false for older and indented views.
* **C193 Images of whole numbers are moved like images of floats** — The integer result is the float result cut towards zero. `C193_partial`: equal with nearest, and for an image moved to its own view; `C193_cut`: same exceptions, never larger in size, less than one off, same sign; `C193_refuted`: linear interpolation loses the fraction. *Result:* partial: `Map.C193_partial`, `Map.C193_cut`, `Map.C193_refuted`. with nearest and for the own view; false with linear interpolation, where fractions are cut.
* **C194 An angular image turned into a square one and back** — `C194_partial`: every pixel inside the circle comes back with the value of a pixel at most one row and one column away, the others are zero, at every resolution; proved with a Lipschitz bound of the map from the square to the image (factor below 3/2). `C194_refuted`: not always its own value, 75 by 75 pixels. *Result:* partial: `Map.C194_partial`, `Map.C194_refuted`. Refuted as stated (75 by 75 pixels); proved: at every resolution the value comes from at most one row and one column away, and outside the circle is zero.
* **C195 A square image turned into an angular one and back** — `C195_partial`: every cell comes back with the value of a cell at most one row and one column away, or zero, and zero only in the outermost rows and columns, at every resolution; `C195_refuted`: the corners of a white image of 4 by 4 cells come back black. *Result:* partial: `Map.C195_partial`, `Map.C195_refuted`. Refuted as stated (4 by 4 cells, corners black); proved: at every resolution at most one row and one column away, or zero in the outermost rows and columns only.
* **C196 A planar pixel comes back after rounding** — Model/RoundedPlane.lean: each operation of the code as a rounded one, identity rotations included as rounded matrix products. C196_uv bounds the error of the coordinates, C196_pixel_partial proves the pixel for (|lo/size|+1)·res ≤ 5e13, C196_exact identifies the model with the exact one (C48), C196_refuted gives a box of size 1 at 2^60 in binary64 where the pixel is lost. *Result:* partial: `Fp.C196_uv`, `Fp.C196_pixel_partial`, `Fp.C196_exact`, `Fp.C196_refuted`. False for every box: a box of size 1 at 2^60 loses its pixels in binary64 (C196_refuted). Proved when (distance of the box from the origin in box sizes + 1) times the resolution is at most 5e13.
* **C197 A weighted quantile splits the weight** — Props/QuantileSplit.lean on Model/Quantile.lean. Refuted: the weight of the smallest value is subtracted from all cumulative weights (C197_refuted, C197_first: it can be changed freely). C197_split_partial proves the split for the other values, leaving out the nearest value above. *Result:* partial: `Quant.C197_split_partial`, `Quant.C197_first`, `Quant.C197_refuted`. False: the weight of the smallest value is never read (C197_refuted, C197_first). Proved: the weights of the other values are split, leaving out the nearest value above.
* **C198 The size of an image does not depend on its name** — Props/ImgSize.lean on Model/ViewHeader.lean. C198_iff: exactly which names work (of the words after the first, each with X or Y must be followed by a number), C198_size_partial: every name without blanks, C198_refuted: 'my X.hdr', C198_one: missing and blank files count as one pixel. *Result:* partial: `ViewHdr.C198_iff`, `ViewHdr.C198_size_partial`, `ViewHdr.C198_one`, `ViewHdr.C198_refuted`. False for names with blanks (C198_refuted); the names that work are characterised (C198_iff), every name without blanks and every orientation proved.
* **C199 Equal areas of the square are equal solid angles** — Cut the square along its diagonals; on each sector the map is a diffeomorphism with Jacobian sin t/(2π); change of variables on each, glue with periodicity in the azimuth; second square by a half turn; cells through the round trips C24, C25, C26; mean by a Riemann sum. *Result:* proved: `Geo.C199_square`, `Geo.C199_hemisphere`, `Geo.C199_sphere`, `Geo.C199_cell`, `Geo.C199_patch`, `Geo.C199_average`, `Geo.C199_mean`, `Geo.C199_cosine`, `Geo.C199_cells`. exact reals; the integral identities hold for every function, measurable or not, as lower Lebesgue integrals.
* **C200 Converting an image between projections keeps its light** — Each converted entry reads the scene at a direction within a multiple of 1/n of its own (C63, C179, chord bound); uniform continuity on the sphere; then the mean over cells (C199) and the solid angle sum (C158) have the known limits. *Result:* proved: `Map.C200_mean`, `Map.C200_light`, `Map.convert_near`, `Map.convert_back`. the input images exist for every scene (pictures_exist, samples_exist).
* **C201 Converting between equisolid and equiangular pictures keeps the light** — Each pixel reads the source within 1/n and the 1e-9 term of the place holding its own direction (C109 read as points of the sphere by the equal-area projection); bilinear and nearest reads stay within the neighbouring nodes; pixels near the rim have as little solid angle as one likes (power test functions); sums converge by C158 and by a Riemann sum over the disc for the equal-area projection. *Result:* proved: `Map.C201_light`, `Map.C201_mean`, `Map.C201_photo`, `Map.circle_limit`, `Map.photo_exists`, `Map.angle_exists`, `Map.rim_small`, `Map.edge_small`. Both directions, both interpolations, 180 degrees. C109 records that other angles do not keep the light.
* **C202 Turning and aligning pictures keeps the light** — World to image space and back is the identity on the whole sphere (polar construction is onto); reads inside the circle use nodes within one and a half pixels; uniform continuity; pixels near the rim have little solid angle; C158 for the sums; periodicity of the integral around the axis. *Result:* proved: `Map.C202_pixels`, `Map.C202_turn`, `Map.C202_kept`, `Map.cap_spin`, `Map.C52_world_pixel`. One pass (rotate_first=True, the default); C110_order gives rotate_first=False as two passes.
* **C203 A worker process that is killed** — Pool as a transition system with death, notice and marking steps; invariant on futures; progress unless a future is lost; with the lock nothing is lost; cost function bounds every schedule. False for the executor of Python before the fix: concrete schedule after which nothing can happen. *Result:* partial: `Pool.C203_outcome`, `Pool.C203_bounded`, `Pool.C203_ends_partial`, `Pool.C203_submitted_partial`, `Pool.C203_alive_partial`, `Pool.C203_refuted`. Outcomes and the bound on schedules hold for every schedule and every death. That the call always comes back holds with an executor that closes under its lock, and with the older one if all arguments were submitted before the pool closes or no worker dies; it is refuted for the older one, where a submission that has passed the check is entered into a pool that nobody manages any more. Marking the futures is one step of the model.
* **C204 Functions that leave something behind** — Small-step model of calls on shared memory (threads) or per-worker memory with copied arguments (processes). Proved if results do not depend on what calls leave behind (an invariant of the memory), and for one forked worker process if arguments are not changed; processes leave the caller's memory as it was. Refuted in general for both modes by a function that numbers its calls. *Result:* partial: `Shared.C204_results_partial`, `Shared.C204_one_partial`, `Shared.C204_caller`, `Shared.C204_refuted_threads`, `Shared.C204_refuted_processes`. The full claim is false in both modes (a function that numbers its calls). Proved when results do not depend on what other calls leave behind, for every interleaving of steps, and for one forked worker when arguments are not changed. Results are values; a returned object that later calls change is not modelled.
* **C205 A view cut out of a picture shows the scene** — The distance of a place from the middle is the angle of its direction (C53), interpolation reads nodes within one pixel, world to image space and back is the identity (C52), uniform continuity in view coordinates; triangle inequality of angles (C34) for the containment; C158 for the sums. *Result:* proved: `Map.C205_pixels`, `Map.C205_light`. Exact real arithmetic; interpolation as in C184. The sums are stated for views inside the picture; the pixel statement has no such condition.
* **C206 Rounding does not move a direction across the rim of a view** — Model/RoundedView.lean adds the computed angle, rim and comparison to the rounded arithmetic of Model/Rounded.lean. The statement is false: a vector 2^-28 off the axis of a view of 2^-30 degrees has the computed angle zero and is in view (C206_refuted). Proved: the computed angle is the true one up to 2e-7 radians for all vectors (C206_angle) and up to 2e-14 / sin of the angle away from the axis (C206_angle_sharp), so the mask is right for every direction farther than 3e-7 (3e-11 for angles above one thousandth of a radian) from the rim, and 2e-6 for the rays of pixels, which are not normalised again. *Result:* partial: `Fp.C206_refuted`, `Fp.C206_angle`, `Fp.C206_angle_sharp`, `Fp.C206_mask_partial`, `Fp.C206_mask_sharp_partial`, `Fp.C206_pixels_partial`. The exact statement is refuted in double precision (angles below about 1e-8 are computed as zero). Proved: the mask is right for every direction that is not within 3e-7 radians of the rim (3e-11 away from the axis, 2e-6 for rays of pixels).
* **C207 Pictures keep their values when they are saved and read** — Model/Rgbe.lean models the pixel store of Radiance (common exponent, three mantissas, trusted reading of its documentation) behind the transpositions of the code. Error of a channel from the floor; idempotence because a decoded pixel lies in the middle of its cell and keeps its exponent; order because cells are ordered; sums by the triangle inequality. Idempotence and order are stated for the factor 256 of present versions, the errors also for 255.9999. *Result:* proved: `Rgbe.C207_channel`, `Rgbe.C207_grey`, `Rgbe.C207_light`, `Rgbe.C207_black`, `Rgbe.C207_again`, `Rgbe.C207_order`, `Rgbe.C207_luminance`. The pixel store is Radiance's and part of the trusted base.
* **C208 rgbe2lum agrees with reading the picture** — False: rgbe2lum takes a mantissa of zero as black, the reader adds half a step to it, so a pure blue pixel is read six per cent brighter (C208_refuted). Proved for every stored pixel without a zero mantissa and for black (C208_partial). *Result:* partial: `Rgbe.C208_refuted`, `Rgbe.C208_partial`. Refuted for pixels with a mantissa of zero next to a channel that is not black; proved for all other pixels.
* **C209 The centre of a view is its direction, in double precision** — Model/RoundedAxis.lean models the angles, remainders and matrices in rounded arithmetic. The polar angle does not wrap unless the direction is nearly straight down; the azimuth is right up to whole turns; the sine of the computed polar angle is compared with the distance from the vertical. In double precision the claim is false for directions about 1.5e-8 off straight down, where the polar angle pi is reduced to 0 and the view looks up; everything else is proved. *Result:* partial: `Fp.C209_refuted`, `Fp.C209_axis_partial`, `Fp.C209_upper_partial`, `Fp.C209_sharp_partial`, `Fp.C209_binary64_partial`, `Fp.C209_reversed`. Refuted in double precision: (2^-26, 0, -1) makes the view look up. Proved: within 1e-4 for all directions 4e-7 rad off straight down (2e-7 outside a cone of 0.01 degrees, 2e-11 off the vertical), for every vector in binary64 outside the exception, and the view is reversed in the exception.
* **C210 Angles and directions agree in double precision** — Model/RoundedAngles.lean in rounded arithmetic. Remainders: the polar angle does not wrap off straight down, the azimuth is right up to whole turns. Degrees and back by relative errors. The direction of the angles compared with p as for C209. False where z is rounded to -1: these come back as straight up. *Result:* partial: `Fp.C210_refuted`, `Fp.C210_tp_partial`, `Fp.C210_aa_partial`, `Fp.C210_altitude_partial`, `Fp.C210_nadir`. Refuted where z is rounded to -1 (comes back as straight up, C210_nadir). Proved: round trips to 2e-7 outside a cone of 0.01 degrees around straight down (for altitude and azimuth: around the vertical), to 2e-11 off the vertical; altitude to 2e-12 degrees.
* **C211 Metrics change little when luminances change little, for instance when a picture is saved and read** — Two metric sets of Model/Metric with rays in pairs (same direction and solid angle, luminances within eps). Sums that are linear or quadratic in luminance by induction on the list of pairs; the selection of sources is the same when no ray lies at the threshold (Gap, which also allows for the change of a threshold that depends on the task luminance). C211_saved_partial combines this with the pixel store of C207. The statement for the glare ratings without Gap is false: C211_refuted gives a ray at the threshold whose change by 0.4 per cent takes ugr from 0 to 28. C211_build_partial carries this over the constructor (view mask, clipping of stray rays, correction of solid angles) when no ray lies at ten times the average, which is the threshold for strays. The low light correction of dgp is covered by the factor its logistic curve may change by. *Result:* partial: `Metric.C211_averages`, `Metric.C211_contrast`, `Metric.C211_pwcontrast`, `Metric.C211_sources_partial`, `Metric.C211_ugr_partial`, `Metric.C211_dgp_partial`, `Metric.C211_saved_partial`, `Metric.C211_build_partial`, `Metric.C211_refuted`. Averages and contrast for every change of luminances. Glare ratings (dgp with and without the low light correction) when no ray lies at the threshold; without that the statement is refuted (0.4 per cent takes ugr from 0 to 28). Carried over the constructor when no ray lies at ten times the average, the threshold for strays.
* **C212 A weighted quantile follows the data** — On the outcomes of Model/Quantile. Sorting keeps lists near one another (by counting), and the interpolation is a convex combination of two neighbours, so equal weights give the bound delta. With values more than 2 delta apart the order is the same. In general there is a jump: C212_refuted shows that for every delta > 0 distinct values 0, 1 and 1 + delta that exchange the last two places move the median from above 1 to 2/3. *Result:* partial: `Quant.C212_equal_partial`, `Quant.C212_apart_partial`, `Quant.C212_affine`, `Quant.C212_refuted`. Shift and scale in general. Small changes of values: with equal weights, or values more than 2 delta apart; refuted otherwise (a jump for every delta).
* **C213 Turning the data over turns the quantile over** — False in general since the cumulative weights start behind the first entry: the step between two neighbours has the weight of the larger one (C213_refuted: 0, 1, 2 with the weights 1, 1, 3 have the median 4/3, mirrored -1). True with equal weights and q at least 1.001e-5 off the ends or at an end (C213_equal_partial), by the linear quantiles of C44. *Result:* partial: `Quant.C213_equal_partial`, `Quant.C213_refuted`. Equal weights, for quantiles not within 1.001e-5 of the ends (or at them); refuted for unequal weights.
* **C214 Several quantiles at once are the quantiles one at a time** — Model of the array version with its shared fallback (coreV). The fallback is only taken when one value is left, where both formulas return it; otherwise entry by entry. Exact arithmetic. *Result:* proved: `Quant.C214_together`.
* **C215 Weighted quantiles in double precision** — Model/RoundedQuantile computes with the binary64 rounding of Model/Binary64, operation by operation. Rounding keeps the order, so the cumulative weights do not fall and the index is as in exact arithmetic; the range and the divisor follow (C215_range). The unweighted fallback is used exactly when the last cumulative weight is zero (C215_fallback), which is so when each further weight is below 2^-54 of the weight of the smallest value (C215_ignored): then all weights are ignored, and plain agreement with the exact quantile is refuted (4/3 against 1). C215_error_partial bounds the error by the rounding of the sum of the weights times the steepest step per weight: a piecewise linear function of bounded slope, read at a point that is off by the rounding of the cumulative weights. *Result:* partial: `Fp.C215_range`, `Fp.C215_fallback`, `Fp.C215_ignored`, `Fp.C215_error_partial`, `Fp.C215_refuted`. Range, divisor and fallback proved for binary64 with an unbounded exponent. Agreement with the exact quantile up to rounding of the sum of weights times the steepest step per weight, for q not within 1.001e-5 of 1; agreement whatever the weights is refuted (weights below 2^-54 of the first one are ignored altogether).
* **C216 Near quantiles have near values** — The quantile is read from a piecewise linear function through the cumulative weights and values, whose slope is bounded (graph_lip, by induction along the pieces). C216_lipschitz_partial: the bound for quantiles that are not treated as 1. Refuted for all quantiles: in the band that counts as 1 the value falls from the top to the neighbour below (0.99998 to 0). *Result:* partial: `Quant.C216_lipschitz_partial`, `Quant.C216_refuted`. Lipschitz in q except in the band |q - 1| <= 1.001e-5, where it is refuted.
* **C217 Culling decides in the order of the input** — A specification (firstCome) that keeps the vectors seen so far as its only state. The mask of the model, which clears entries by index lists and a set of flagged indices, is shown to satisfy the same recursion through the invariant of C38 (firstCome_unique, C217_first_come); the rest is induction on the specification. *Result:* proved: `Cull.C217_first_come`, `Cull.C217_later`, `Cull.C217_again`, `Cull.C217_batches`, `Cull.C217_moved`, `Cull.C217_duplicates`. exact distances; scipy's neighbour lists in increasing order as in C38.
* **C218 A larger tolerance keeps fewer vectors** — Refuted with four vectors in a plane (two kept with 0.95, three with 1). C218_double_partial: true when the larger tolerance is at least twice the smaller: each vector kept with the larger one has a vector kept with the smaller one near it, and no two share it by the triangle inequality. *Result:* partial: `Cull.C218_double_partial`, `Cull.C218_refuted`. refuted as stated; true for tolerances a factor of two apart.
* **C219 Culling in double precision** — Model/RoundedCull computes the squared distances operation by operation with the rounding of Model/Binary64. The loop needs only a symmetric relation that relates each vector to itself: such a relation is the relation of being within 1 for the distance 1 between related and 2 between other indices, so C38 applies (cull_rel). Rounding is odd (rnd_neg), so rounded distances are symmetric. The bounds follow from the relative error of the seven operations. *Result:* proved: `Fp.C219_first_come`, `Fp.C219_spaced`, `Fp.C219_covered`. unbounded exponent (no underflow of the squares); skipping branches of the tree is taken not to change which pairs are found.
* **C220 Weighted quantiles of data with missing entries** — Model/NanQuantile carries NaN as a missing number through every operation of lines 427-443. C220_numbers: without NaN it is the model of C41. C220_weights: entries with a NaN weight are left out. For NaN values the property is refuted (the median of 0, 1, NaN is NaN). C220_number says exactly which quantiles are numbers: NaN counts as the largest value, so q times the weights after the first must be less than the weights of the numbers after the first. C220_range: those quantiles lie between two numbers of the data. *Result:* partial: `Quant.C220_weights`, `Quant.C220_numbers`, `Quant.C220_number`, `Quant.C220_range`, `Quant.C220_refuted`. NaN weights are left out; NaN values are refuted to be, and it is said exactly which quantiles they spoil.
* **C221 Chords and angles in double precision** — Model/RoundedChord with correctly rounded sine and arc sine; halving and doubling are exact. C221_number: the argument of the arc sine is in [-1, 1] for every angle. C221_chord: relative error 3 * 2^-53. For angles the property is refuted near 180 degrees, where the sine is rounded to 1 (5.7e-9 are lost); C221_angle_partial bounds the error by 2^-53 pi (1 + 2 tan(theta / 2)), from the inequality |a - b| cos a <= pi |sin a - sin b|. C221_all_partial: to 1e-7 for all angles up to 180 degrees included. *Result:* partial: `Fp.C221_number`, `Fp.C221_chord`, `Fp.C221_angle_partial`, `Fp.C221_refuted`, `Fp.C221_all_partial`. chords come back; angles come back up to 2^-53 pi (1 + 2 tan(theta/2)), refuted near 180 degrees; sine and arc sine taken as correctly rounded.
* **C222 Angles between directions in double precision** — radiansF and normF of Model/RoundedNorm with the rounding of Model/Binary64. C222_number: range and symmetry for all arguments. C222_error_partial: to 1e-7 for all vectors, through the relative error of the computed length (nrm_rel), of the coordinates (div_nrm_rel) and of the dot product (dot_rel), and the inequality 2 (a - b)^2 <= pi^2 |cos a - cos b|. The accuracy of double precision is refuted: the angle of (1, 1, 0) with itself is 2e-8. C222_sharp_partial: away from 0 and 180 degrees the error is at most 2e-14 over the sine of the angle; C222_degree_partial: 2e-12 between 1 and 179 degrees. *Result:* partial: `Fp.C222_number`, `Fp.C222_error_partial`, `Fp.C222_refuted`, `Fp.C222_sharp_partial`, `Fp.C222_degree_partial`. to 1e-7 for all vectors, 1e-9 refuted; the arc cosine itself is not rounded, the exponent is unbounded.
* **C223 Reflection in double precision** — Model/RoundedReflect computes lines 680-686 operation by operation. reflect_within follows the error through the dot product, the two products and the difference, in units of 2^-53, from an input error e to at most 8 e + 70; C223_mirror (e = 5 of norm), C223_back (a second pass) and C223_mask (the computed length is within 1e-5 of one) follow. *Result:* proved: `Fp.C223_mirror`, `Fp.C223_back`, `Fp.C223_mask`. binary64 with an unbounded exponent; one ray and one normal, batches as in C37_batch.
* **C224 Rotations about an axis in double precision** — Model/RoundedRotate computes lines 571-581 operation by operation, with the matrix rolled as np.roll does and rows multiplied by the rounded dot product. turnAngleF_near bounds the angle, entry_near the matrix entries, mix_near two products and a sum; C224_error follows for each axis, C224_axis because 0 and 1 multiply exactly, C224_full from a turn by 2 pi, C224_compose from two passes, C224_back from a zero sum and C224_length from the exact length. *Result:* proved: `Fp.C224_axis`, `Fp.C224_error`, `Fp.C224_back`, `Fp.C224_full`, `Fp.C224_compose`, `Fp.C224_length`. Sine and cosine are taken as correctly rounded and einsum as summing from left to right; exponent range unbounded.
* **C225 Quarter turns in double precision** — On the model of C224. C225_quarters_partial bounds the difference by 6.3 k + 5 units of 2^-53 for each unit of size. The exact statement is false: a double is rational and pi is not, so no computed angle other than zero has a zero sine or cosine (C225_never); C225_refuted is the case of 90 degrees. *Result:* partial: `Fp.C225_quarters_partial`, `Fp.C225_never`, `Fp.C225_refuted`. Exactness is refuted at 90 degrees and for every other angle than zero; equality up to rounding is proved.
* **C226 Many turns do not add up to more than rounding** — On the model of C224, by induction on the sequence: an exact turn keeps distances (gap3_turned), one computed turn adds turnEps times the length (turn_gap, from C224_error), and the triangle inequality gives C226_drift; C226_repeat and C226_circle are its cases. *Result:* proved: `Fp.C226_drift`, `Fp.C226_repeat`, `Fp.C226_circle`. Sine and cosine are taken as correctly rounded and einsum as summing from left to right; exponent range unbounded.
* **C227 Normalising in double precision** — On the model of norm in Model/RoundedNorm with binary64. Rounding commutes with negation and with powers of two, which gives C227_opposite and C227_binary_scale; C227_scale compares both results with the exact direction, C227_again uses that the length of a normalised vector is within 5 units of one. *Result:* proved: `Fp.C227_opposite`, `Fp.C227_binary_scale`, `Fp.C227_scale`, `Fp.C227_again`. binary64 with an unbounded exponent, so overflow and underflow of the squares are not covered; one row.
* **C228 Symmetries of reflection in double precision** — On the model of C223 with binary64. Rounding commutes with negation (rnd_neg) and with powers of two (rnd_scale), which are carried through the dot product and the three coordinates; for a mirror across an axis the products with 0, 1 and 2 are exact. *Result:* proved: `Fp.C228_side`, `Fp.C228_opposite`, `Fp.C228_binary_scale`, `Fp.C228_axis`, `Fp.C228_twice`. Lines 680-681 of reflect for one ray and one normal; a zero has no sign in the model; exponent range unbounded.
* **C229 Symmetries of rotations in double precision** — On the model of C224, coordinate by coordinate (rotateElemF_eq). Rounding commutes with negation and powers of two; the computed angle is odd, so the computed cosine is even and the sine odd. *Result:* proved: `Fp.C229_opposite`, `Fp.C229_binary_scale`, `Fp.C229_mirror`, `Fp.C229_zero`. Sine and cosine are taken as correctly rounded (hence odd and even); a zero has no sign in the model; exponent range unbounded.
* **C230 Culling does not depend on sign, mirror or unit** — On the model of C219. A map that keeps every rounded comparison keeps the mask (cull_image); rounding commutes with negation and powers of two, so the squared distances are equal or have one common factor with the squared tolerance. *Result:* proved: `Fp.C230_mirror`, `Fp.C230_opposite`, `Fp.C230_binary_scale`. The query of the tree is modelled as in C219: rounded squared distances compared with the rounded squared tolerance; exponent range unbounded.
