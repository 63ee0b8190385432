{"id": "C01", "title": "Process cap behaves like a single optional cell", "statement": "After any sequence of set_nproc / unset_nproc calls, get_nproc() returns the value of the last successful set_nproc(n) with n>=1 that has not been cleared since (by set_nproc(n<1) or unset_nproc()), and the machine's cpu count when there is none; get_nproc(k) with an explicit k always returns k; set_nproc(None) changes nothing; set_nproc of a non-int raises ValueError and changes nothing.", "quantifier": "every finite history of set/unset/get calls with arbitrary arguments, every initial environment", "why_tests_cant": "a test runs a few histories; the claim is about all interleavings of setting, clearing and rejected calls and all integers", "anchors": ["raytools/io.py:get_nproc", "raytools/io.py:set_nproc", "raytools/io.py:unset_nproc"]}
{"id": "C02", "title": "pool_call returns results in argument order under every schedule", "statement": "pool_call(func, args, *fixed, **kw) returns exactly [func(*a, *fixed, **kw) for a in args] (or func(a, ...) when expandarg is false), for a process pool, a thread pool or no pool, whatever order the workers start and finish tasks in.", "quantifier": "every pure func, every argument list, every number of workers >= 1, every interleaving of worker starts and completions", "why_tests_cant": "completion order is chosen by the OS; tests see a handful of schedules", "anchors": ["raytools/utility.py:pool_call", "raytools/utility.py:TStqdm"]}
{"id": "C03", "title": "pool_call raises the first failing argument's exception under every schedule", "statement": "If func raises for some arguments, pool_call raises the exception of the earliest failing argument (in list order), exactly as the sequential loop does, regardless of which task failed first in time.", "quantifier": "every func that returns or raises, every argument list, every interleaving", "why_tests_cant": "needs all completion orders of failing and succeeding tasks", "anchors": ["raytools/utility.py:pool_call"]}
{"id": "C04", "title": "Cached metric reads are independent of access history", "statement": "Reading metrics from any number of metric-set objects in any order and any number of times, each read returns the value the metric's formula gives for that object; the size-one caches shared between objects never leak another object's value.", "quantifier": "every finite history of reads over any number of objects and metrics (objects not modified in between)", "why_tests_cant": "cache hits depend on the interleaving of objects; the number of histories is unbounded", "anchors": ["raytools/evaluate/basemetricset.py:BaseMetricSet", "raytools/evaluate/metricset.py:MetricSet"]}
{"id": "C05", "title": "framesize follows the mapper's current aspect", "statement": "For a planar Mapper, framesize(res) returns (res, round(res/aspect)) or (round(res*aspect), res) according to the aspect the mapper has at the time of the call, after any history of aspect assignments and framesize calls.", "quantifier": "every history of aspect assignments and framesize calls on any number of mappers", "why_tests_cant": "a stale cache entry only shows for particular histories", "anchors": ["raytools/mapper/mapper.py:Mapper.framesize", "raytools/mapper/mapper.py:Mapper.aspect"]}
{"id": "C06", "title": "Array to bytes and back is the identity", "statement": "bytes2np(np2bytes(ar, dtype), ar.shape, dtype) equals ar for every array already representable in dtype, for either byte order and any item size; the byte string has length size*itemsize; a shape with a different number of elements is rejected.", "quantifier": "every shape, every element values, every item size, both byte orders, one inferred (-1) dimension", "why_tests_cant": "unbounded sizes and all bit patterns", "anchors": ["raytools/io.py:np2bytes", "raytools/io.py:bytes2np"]}
{"id": "C07", "title": "Binary files accumulate appended arrays in order", "statement": "After any sequence of np2bytefile calls in 'wb' (truncate) or 'ab' (append) mode on a file, bytefile2np with shape (-1, k) returns the rows of all arrays written since the last truncation, in writing order.", "quantifier": "every history of truncating/appending writes", "why_tests_cant": "histories are unbounded", "anchors": ["raytools/io.py:np2bytefile", "raytools/io.py:bytefile2np"]}
{"id": "C08", "title": "HDR write then read preserves pixel positions", "statement": "Provided the Radiance pvalue tool stores and returns the pixel values it is given, hdr2array(array2hdr(ar)) has the shape of ar and the same value at every (x, y); likewise hdr2carray(carray2hdr(ar)) at every (channel, x, y); the declared resolution string matches the array's shape.", "quantifier": "every width, height and pixel content", "why_tests_cant": "two transpositions and two flips must cancel for every size; tests use one image size", "anchors": ["raytools/io.py:array2hdr", "raytools/io.py:carray2hdr", "raytools/io.py:hdr2array", "raytools/io.py:hdr2carray", "raytools/io.py:_hdr_in"]}
{"id": "C09", "title": "RAYPATH set-up is ordered, duplicate free and idempotent", "statement": "Importing raytools leaves RAYPATH = '.', the package cal directory, then the entries RAYPATH had before in their original order, without duplicates (when RAYPATH was set before); doing it again changes nothing.", "quantifier": "every prior value of RAYPATH and every package location without path separators", "why_tests_cant": "arbitrary environment strings", "anchors": ["raytools/__init__.py:set_raypath"]}
{"id": "C10", "title": "load_txt maps every outcome to its documented exception", "statement": "load_txt(x) raises TypeError exactly when x is not str/bytes, FileNotFoundError exactly when it is but no such file exists, ValueError when the file exists but does not parse, and otherwise returns what np.loadtxt returns.", "quantifier": "every argument and file system state", "why_tests_cant": "decision table over all inputs", "anchors": ["raytools/io.py:load_txt"]}
{"id": "C11", "title": "is_hdr recognises Radiance files", "statement": "is_hdr(path) returns True exactly when the file starts with '#?RADIANCE'.", "quantifier": "every file content", "why_tests_cant": "the set of files is unbounded", "anchors": ["raytools/io.py:is_hdr"]}
{"id": "C12", "title": "header_items returns the last value for each requested key", "statement": "header_items(header, items) returns a list as long as items; entry k is the value of the last header line whose key equals items[k] ignoring case (values are stripped), or '' when there is none; section lines ending in ':' are ignored.", "quantifier": "every list of header lines and requested keys (distinct ignoring case)", "why_tests_cant": "all header contents", "anchors": ["raytools/io.py:header_items"]}
{"id": "C13", "title": "clean_header keeps exactly the last view and drops format lines", "statement": "For every header it accepts, clean_header's result ends with 'VIEW=' + the value of the last VIEW line of the input if there is one, no other line of the result stems from a VIEW, pvalue or FORMAT line, and without a VIEW line none is added.", "quantifier": "every list of header lines, arbitrary nesting", "why_tests_cant": "unbounded headers", "anchors": ["raytools/io.py:CleanHeader", "raytools/io.py:clean_header"]}
{"id": "C14", "title": "clean_header loses no other information", "statement": "For every header it accepts, each input line that is not a section, VIEW, pvalue or FORMAT line is still present in the result: its 'key sep value' text (or the stripped line, or, for a continuation line, its value) occurs within a line of the result or, for an entry longer than the header width, within the consecutive lines the entry is wrapped into.", "quantifier": "every list of header lines, arbitrary nesting and duplicates", "why_tests_cant": "promotion of duplicates moves lines between lists; all histories needed", "anchors": ["raytools/io.py:CleanHeader._preprocess", "raytools/io.py:CleanHeader._pop_and_promote", "raytools/io.py:CleanHeader._clean_up"]}
{"id": "C15", "title": "clean_header accepts every header", "statement": "clean_header never raises, whatever the header lines are.", "quantifier": "every list of header lines", "why_tests_cant": "crashes depend on rare line orders", "anchors": ["raytools/io.py:CleanHeader._preprocess"]}
{"id": "C16", "title": "clean_header keeps file sections nested as in the input", "statement": "A section line that returns to a shallower indentation becomes a child of the nearest enclosing section of smaller indentation.", "quantifier": "every indentation history", "why_tests_cant": "needs all nesting histories", "anchors": ["raytools/io.py:CleanHeader._preprocess"]}
{"id": "C17", "title": "View header text round trip", "statement": "The header line produced for an angular view, stored in an image of the size made for that view, is read back as a view with the same direction and the same total view angle (including 360 degree views stored as 2:1 images), and when several views are in a header the last one is used.", "quantifier": "every view angle, direction, view point and resolution", "why_tests_cant": "all parameter values; token positions are found by searching", "anchors": ["raytools/mapper/angularmixin.py:AngularMixin.header", "raytools/imagetools.py:hdr2vm", "raytools/imagetools.py:img_size"]}
{"id": "C18", "title": "Radiance/luminance conversion is linear and consistent", "statement": "rgb2lum(rgb, w) = 179 * rgb2rad(rgb, w) for every pixel and weights; both are additive and homogeneous in rgb; nonnegative rgb and weights give nonnegative results; a grey pixel with weights summing to one keeps its value.", "quantifier": "every pixel array and weight vector", "why_tests_cant": "universally quantified algebra", "anchors": ["raytools/io.py:rgb2rad", "raytools/io.py:rgb2lum"]}
{"id": "C19", "title": "rgbe2lum decodes the RGBE format", "statement": "For r,g,b,e in 0..255, rgbe2lum returns 179*(0.265 R + 0.670 G + 0.065 B) with C = 0 if c = 0 else (c+0.5)*2^(e-136), also when the array has the unsigned 8-bit dtype the format uses; it is nonnegative and nondecreasing in every mantissa and in the exponent.", "quantifier": "all 2^32 pixel values", "why_tests_cant": "2^32 values, and integer dtype wrap-around", "anchors": ["raytools/io.py:rgbe2lum"]}
{"id": "C20", "title": "Vector normalisation", "statement": "norm(v) and norm1(v) return the unit vector in the direction of v for every nonzero v, normalising twice changes nothing, positive scaling of v changes nothing, and norm1 of the zero vector is the zero vector.", "quantifier": "every vector", "why_tests_cant": "continuum of inputs", "anchors": ["raytools/translate.py:norm", "raytools/translate.py:norm1"]}
{"id": "C21", "title": "uv2xyz lands on the unit sphere", "statement": "For every (u,v) in [0,2]x[0,1], both x signs and every axis permutation, uv2xyz returns a unit vector whose third mapped component is >= 0 for u <= 1 and <= 0 for u > 1.", "quantifier": "the whole uv rectangle", "why_tests_cant": "continuum of inputs; branch boundaries", "anchors": ["raytools/translate.py:uv2xyz"]}
{"id": "C22", "title": "uv2xy maps squares to concentric circles", "statement": "uv2xy maps [0,1]^2 into the closed unit disk and sends the square at max-norm distance s from the centre onto the circle of radius s; xyz2uv with the spherical lift of that point returns (u,v).", "quantifier": "the whole unit square", "why_tests_cant": "continuum of inputs", "anchors": ["raytools/translate.py:uv2xy"]}
{"id": "C23", "title": "Direction -> uv -> direction is the identity on the whole sphere", "statement": "uv2xyz(xyz2uv(p, flipu=True), xsign=-1) = p for every unit vector p (the orientation used by the view mappers), and every unit vector's uv lies in [0,2]x[0,1].", "quantifier": "every unit vector", "why_tests_cant": "eight branches meeting on seams of measure zero", "anchors": ["raytools/translate.py:xyz2uv", "raytools/translate.py:uv2xyz"]}
{"id": "C24", "title": "uv -> direction -> uv is the identity", "statement": "xyz2uv(uv2xyz(uv, xsign=-1), flipu=True) = uv for every uv in [0,1]x[0,1] and every uv with u in (1,2) strictly inside the second square.", "quantifier": "every uv point except the duplicated equator edge", "why_tests_cant": "continuum with branch seams", "anchors": ["raytools/translate.py:xyz2uv", "raytools/translate.py:uv2xyz"]}
{"id": "C25", "title": "Sky-orientation round trip", "statement": "uv2xyz(xyz2uv(p, flipu=False), xsign=1) = p for every unit vector p.", "quantifier": "every unit vector", "why_tests_cant": "orientation conventions differ per hemisphere", "anchors": ["raytools/translate.py:xyz2uv", "raytools/translate.py:uv2xyz"]}
{"id": "C26", "title": "Grid bins and uv cells are inverse", "statement": "For every side >= 1 and bin number 0 <= b < 2*side^2, uv2bin(bin2uv(b, side, offset), side) = b for every offset in [0,1), so distinct bins have disjoint cells; every uv in [0,2)x[0,1) lies in the cell of uv2bin(uv).", "quantifier": "all sides, all bins, all offsets", "why_tests_cant": "unbounded integers and a continuum of offsets", "anchors": ["raytools/translate.py:uv2ij", "raytools/translate.py:uv2bin", "raytools/translate.py:bin2uv"]}
{"id": "C27", "title": "uv2ij always returns a valid grid index", "statement": "For every uv in [0,2]x[0,1], uv2ij(uv, side) returns i in [0, 2*side) and j in [0, side) and is the cell containing uv (closed upper edges included in the last cell).", "quantifier": "the closed uv rectangle", "why_tests_cant": "edges have measure zero", "anchors": ["raytools/translate.py:uv2ij"]}
{"id": "C28", "title": "Sky patch centre round trip", "statement": "For every side >= 1 and every sky bin b < side^2, xyz2skybin(skybin2xyz(b, side), side) = b, skybin2xyz returns a unit vector with z >= 0, and any bin in [side^2, 2 side^2) is mapped to straight down.", "quantifier": "all sides and bins", "why_tests_cant": "all grid sizes", "anchors": ["raytools/translate.py:xyz2skybin", "raytools/translate.py:skybin2xyz"]}
{"id": "C29", "title": "Tolerant sky bin lookup", "statement": "xyz2skybin(d, side, tol>0) returns a strictly increasing list of bins, all in [0, side^2), and contains the bin of d itself whenever d is above the horizon.", "quantifier": "every direction, side, tolerance", "why_tests_cant": "continuum", "anchors": ["raytools/translate.py:xyz2skybin"]}
{"id": "C30", "title": "Spherical angles round trip", "statement": "xyz2tp(tp2xyz(theta, phi)) = (theta, phi) for every theta in [0, pi] away from the poles and phi in [0, 2pi), and tp2xyz(xyz2tp(p)) = p for every unit vector p.", "quantifier": "every unit vector", "why_tests_cant": "poles and tolerance caps", "anchors": ["raytools/translate.py:tp2xyz", "raytools/translate.py:xyz2tp", "raytools/translate.py:tpnorm"]}
{"id": "C31", "title": "Altitude/azimuth round trip", "statement": "aa2xyz(xyz2aa(p)) = p for every unit vector p, xyz2aa(p) has altitude arcsin(p_z) in degrees, and azimuth in [-180, 180].", "quantifier": "every unit vector", "why_tests_cant": "poles", "anchors": ["raytools/translate.py:aa2xyz", "raytools/translate.py:xyz2aa"]}
{"id": "C32", "title": "tpnorm reduces angles without changing the direction", "statement": "tpnorm returns theta in [0, pi] and phi in [0, 2pi) denoting the same direction as its argument.", "quantifier": "every pair of angles", "why_tests_cant": "continuum", "anchors": ["raytools/translate.py:tpnorm"]}
{"id": "C33", "title": "Chord and angle conversions are inverse and geometric", "statement": "chord2theta(theta2chord(t)) = t on [0, pi], theta2chord(chord2theta(c)) = c on [0, 2], and for unit vectors a, b: theta2chord(radians(a, b)) = |a - b|.", "quantifier": "all angles / chords / pairs of unit vectors", "why_tests_cant": "continuum", "anchors": ["raytools/translate.py:chord2theta", "raytools/translate.py:theta2chord", "raytools/translate.py:radians"]}
{"id": "C34", "title": "Angles between vectors", "statement": "For unit vectors radians(a,b) lies in [0, pi], is symmetric, is 0 exactly when a = b, pi exactly when a = -b, satisfies the triangle inequality, and degrees = radians*180/pi; ctheta always lies in [-1,1].", "quantifier": "all vectors", "why_tests_cant": "continuum", "anchors": ["raytools/translate.py:ctheta", "raytools/translate.py:radians", "raytools/translate.py:degrees"]}
{"id": "C35", "title": "Elementary rotations", "statement": "rotate_elem(v, t, axis) preserves lengths and the given axis' component, rotations about one axis compose by adding angles, rotating by -t undoes t, 360 degrees is the identity, and the matrix has determinant one, for each of the three axes.", "quantifier": "every vector, angle, axis", "why_tests_cant": "continuum", "anchors": ["raytools/translate.py:rmtx_elem", "raytools/translate.py:rotate_elem"]}
{"id": "C36", "title": "Look-at rotation", "statement": "For every nonzero v, the two matrices returned by rmtx_yp(v) are rotations (orthogonal, determinant one), their product takes v/|v| to (0,0,1), maps world up into the x=0 plane with y >= 0, and transposing in reverse order undoes it.", "quantifier": "every nonzero vector", "why_tests_cant": "poles and tolerance branches", "anchors": ["raytools/translate.py:rmtx_yp"]}
{"id": "C37", "title": "Reflection", "statement": "For unit normals, reflect preserves lengths, reverses the normal component, keeps the tangential component, and applied twice is the identity; the returned mask flags exactly the reflected vectors of length close to one.", "quantifier": "every ray and unit normal", "why_tests_cant": "continuum", "anchors": ["raytools/translate.py:reflect"]}
{"id": "C38", "title": "cull_vectors keeps a maximal well-spaced subset", "statement": "cull_vectors(vecs, tol) keeps vectors that are pairwise farther than tol apart, every removed vector is within tol of a kept one, the first vector is kept, and vectors without neighbours are never removed.", "quantifier": "every list of vectors and tolerance", "why_tests_cant": "greedy order dependence over unbounded lists", "anchors": ["raytools/translate.py:cull_vectors"]}
{"id": "C39", "title": "simple_take indexes each axis independently", "statement": "simple_take keeps the number of dimensions; entry (i0,i1,...) of the result is the entry of the input at the positions selected on each axis (None: all, sequence: those indices, slice: Python slice semantics); axes not listed are untouched; out-of-range indices raise.", "quantifier": "arrays of every rank and shape, all index specifications", "why_tests_cant": "unbounded ranks/shapes", "anchors": ["raytools/translate.py:simple_take"]}
{"id": "C40", "title": "Whole-number resampling", "statement": "resample to an integer multiple without smoothing repeats each entry, to an integer fraction averages each block exactly, returns the requested shape, preserves the mean, and downsampling undoes upsampling.", "quantifier": "all arrays, all whole-number factors", "why_tests_cant": "unbounded sizes", "anchors": ["raytools/translate.py:resample"]}
{"id": "C41", "title": "Weighted quantile stays within the data and hits the end points", "statement": "With positive included weights, weighted_quantile(d, w, q) lies between the smallest and largest included value for every q in [0,1], equals the smallest at q=0 and the largest at q=1; entries with weight <= t have no influence.", "quantifier": "all data, weights, quantiles", "why_tests_cant": "continuum and unbounded lengths", "anchors": ["raytools/translate.py:weighted_quantile", "raytools/translate.py:weighted_median"]}
{"id": "C42", "title": "Weighted quantile is nondecreasing in q", "statement": "For fixed data and weights, q <= q' implies weighted_quantile(d,w,q) <= weighted_quantile(d,w,q').", "quantifier": "all data, weights and pairs of quantiles", "why_tests_cant": "continuum", "anchors": ["raytools/translate.py:weighted_quantile"]}
{"id": "C43", "title": "Weighted quantile does not depend on input order", "statement": "Permuting the (value, weight) pairs does not change weighted_quantile.", "quantifier": "all data and permutations", "why_tests_cant": "factorially many permutations", "anchors": ["raytools/translate.py:weighted_quantile"]}
{"id": "C44", "title": "Weighted quantile is weight-scale free and agrees with the unweighted one", "statement": "Multiplying all weights (and the threshold) by a positive factor changes nothing, and equal weights give the linear-interpolation quantile np.quantile(d, q).", "quantifier": "all data, factors, quantiles", "why_tests_cant": "continuum", "anchors": ["raytools/translate.py:weighted_quantile"]}
{"id": "C45", "title": "Smoothing is an averaging operation", "statement": "non_uniform_gaussian_filter with amethod 'mean' returns, for each output point and feature, a value between the minimum and maximum of that feature; constants are reproduced; where all weights vanish it returns the linear interpolation of the neighbouring samples (end values outside).", "quantifier": "all data, sigma, bandwidths and sample positions", "why_tests_cant": "continuum", "anchors": ["raytools/translate.py:non_uniform_gaussian_filter"]}
{"id": "C46", "title": "Smoothing output lines up with the input samples", "statement": "When xr is None, output entry i of non_uniform_gaussian_filter is the smoothed value at the i-th input sample, for unsorted x too.", "quantifier": "all orders of x", "why_tests_cant": "depends on a branch never exercised by sorted input", "anchors": ["raytools/translate.py:non_uniform_gaussian_filter"]}
{"id": "C47", "title": "Planar mapper uv/world inverse", "statement": "For a planar Mapper with nonzero scale factors, xyz2uv(uv2xyz(uv)) = uv for every uv, and uv2xyz(xyz2uv(p)) = p for every p in the mapper's plane.", "quantifier": "all mapper parameters and points", "why_tests_cant": "continuum", "anchors": ["raytools/mapper/mapper.py:Mapper.uv2xyz", "raytools/mapper/mapper.py:Mapper.xyz2uv"]}
{"id": "C48", "title": "Planar mapper pixel round trip", "statement": "For a planar Mapper, the ray through the centre of pixel (i,j) maps back to pixel (i,j).", "quantifier": "all resolutions and pixels", "why_tests_cant": "all sizes", "anchors": ["raytools/mapper/mapper.py:Mapper.pixelrays", "raytools/mapper/mapper.py:Mapper.ray2pixel"]}
{"id": "C49", "title": "Flat index and uv sampling are inverse, jitter included", "statement": "uv2idx(idx2uv(idx, shape, jitter), shape) = idx for every shape, every idx < size, with or without jitter, for every mapper class that offers both.", "quantifier": "all shapes, indices, jitter rates and random draws", "why_tests_cant": "random draws and unbounded shapes", "anchors": ["raytools/mapper/mapper.py:Mapper.idx2uv", "raytools/mapper/mapper.py:Mapper.uv2idx", "raytools/mapper/viewmapper.py:ViewMapper.idx2uv"]}
{"id": "C50", "title": "View rotation", "statement": "For every view direction, world2view and view2world are inverse isometries, and world2view takes the view direction to (0,0,1).", "quantifier": "every view direction and vector", "why_tests_cant": "continuum, poles", "anchors": ["raytools/mapper/mapper.py:Mapper.world2view", "raytools/mapper/mapper.py:Mapper.view2world", "raytools/mapper/viewmapper.py:ViewMapper.dxyz"]}
{"id": "C51", "title": "Angular view uv round trip", "statement": "For every ViewMapper, uv2xyz returns unit vectors, uv=(.5,.5) of a view with angle < 360 is the view direction, and xyz2uv(uv2xyz(uv)) = uv for uv in [0,1]^2.", "quantifier": "every direction, view angle up to 180 (and 360 on both squares), uv", "why_tests_cant": "continuum", "anchors": ["raytools/mapper/angularmixin.py:AngularMixin.uv2xyz", "raytools/mapper/angularmixin.py:AngularMixin.xyz2uv"]}
{"id": "C52", "title": "Angular view pixel round trip", "statement": "For every ViewMapper with view angle <= 180, every resolution and every pixel (also outside the image circle), the ray of the pixel centre is a unit vector and ray2pixel returns that pixel; more generally xyz2vxy(vxy2xyz(p)) = p on the unit square.", "quantifier": "all view directions, angles, resolutions, pixels", "why_tests_cant": "continuum / unbounded sizes", "anchors": ["raytools/mapper/angularmixin.py:AngularMixin.vxy2xyz", "raytools/mapper/angularmixin.py:AngularMixin.xyz2vxy", "raytools/mapper/mapper.py:Mapper.ray2pixel", "raytools/mapper/mapper.py:Mapper.pixel2ray"]}
{"id": "C53", "title": "Equiangular projection law and image circle", "statement": "Image distance from the centre is proportional to the angle from the view direction, and a pixel's ray is in_view exactly when the pixel centre lies strictly inside the inscribed circle.", "quantifier": "all views, points", "why_tests_cant": "continuum", "anchors": ["raytools/mapper/angularmixin.py:AngularMixin.in_view", "raytools/mapper/angularmixin.py:AngularMixin.vxy2xyz", "raytools/translate.py:xyz2xy"]}
{"id": "C54", "title": "360 degree views are two opposite hemispheres", "statement": "For a 360 degree ViewMapper the first half of the pixel rays is the 180 degree view along the direction, the second half the 180 degree view of the opposite direction; every in-circle pixel of either half maps back to itself and every direction off the equator maps to a point in exactly one half.", "quantifier": "all directions, resolutions, pixels", "why_tests_cant": "continuum", "anchors": ["raytools/mapper/angularmixin.py:AngularMixin.pixelrays", "raytools/mapper/angularmixin.py:AngularMixin.xyz2vxy", "raytools/mapper/viewmapper.py:ViewMapper.dxyz"]}
{"id": "C55", "title": "Drawing rays into an image touches exactly their pixels", "statement": "add_vecs_to_img with grow=0 sets exactly the in-bounds pixels of the given rays (restricted to mask when given) to the channel value and leaves every other pixel unchanged; rays outside the image are ignored.", "quantifier": "every image, ray list, mask", "why_tests_cant": "unbounded inputs", "anchors": ["raytools/mapper/mapper.py:Mapper.add_vecs_to_img", "raytools/mapper/angularmixin.py:AngularMixin.add_vecs_to_img"]}
{"id": "C56", "title": "Coordinate transforms do not modify their arguments", "statement": "Calling vxy2xyz, tpnorm, tp2xyz, xyz2tp, uv2xyz, xyz2uv leaves the caller's arrays unchanged.", "quantifier": "every argument array", "why_tests_cant": "aliasing is invisible to value-only tests", "anchors": ["raytools/mapper/angularmixin.py:AngularMixin.vxy2xyz", "raytools/mapper/mapper.py:Mapper.vxy2xyz", "raytools/translate.py:tpnorm", "raytools/translate.py:tp2xyz"]}
{"id": "C57", "title": "Equisolid mapper round trip", "statement": "For SolidViewMapper, xyz2vxy(vxy2xyz(p)) = p on the inscribed disk up to 1e-8, and image distance r from the centre corresponds to the equisolid law 2 sin(theta/2).", "quantifier": "all views and points", "why_tests_cant": "continuum", "anchors": ["raytools/mapper/solidviewmapper.py:SolidViewMapper.vxy2xyz", "raytools/mapper/solidviewmapper.py:SolidViewMapper.xyz2vxy"]}
{"id": "C58", "title": "PerspectiveViewMapper is a perspective projection", "statement": "For PerspectiveViewMapper straight lines map to straight lines: image distance from the centre is proportional to tan(theta).", "quantifier": "all views and points", "why_tests_cant": "continuum", "anchors": ["raytools/mapper/perspectiveviewmapper.py:PerspectiveViewMapper.vxy2xyz"]}
{"id": "C59", "title": "Peak normalisation conserves energy", "statement": "normalize_peak returns rays whose total luminance*solid-angle equals that of the input, for full, partial and blurred suns.", "quantifier": "every ray set with positive solid angles, every parameter choice", "why_tests_cant": "continuum, sorting ties", "anchors": ["raytools/imagetools.py:find_peak", "raytools/imagetools.py:normalize_peak"]}
{"id": "C60", "title": "Peak normalisation replaces only bright pixels near the peak", "statement": "The rays removed by normalize_peak are all above the threshold and within the search cone of the brightest one, include the brightest, all other rays are returned unchanged and in order, followed by exactly one new ray; with no ray above the threshold the input is returned as is.", "quantifier": "every ray set", "why_tests_cant": "sorting and masking over unbounded data", "anchors": ["raytools/imagetools.py:find_peak", "raytools/imagetools.py:normalize_peak"]}
{"id": "C61", "title": "Merged peak direction", "statement": "The merged source direction is a unit vector, and replacing the removed rays by it never lowers the vertical illuminance on a sensor facing the merged direction's side, nor raises it by more than the factor 1/|weighted mean direction|.", "quantifier": "every ray set", "why_tests_cant": "continuum", "anchors": ["raytools/imagetools.py:find_peak"]}
{"id": "C62", "title": "Stray source grouping terminates and groups disjointly", "statement": "gather_strays terminates for unit directions and a cone cosine below one, each returned group has positive solid angle, and the groups' solid angles sum to at most the total of the bright rays.", "quantifier": "every ray set", "why_tests_cant": "recursion over data", "anchors": ["raytools/imagetools.py:gather_strays"]}
{"id": "C63", "title": "Projection between angular and square images only moves pixels", "statement": "array_ang2uv and array_uv2ang for 180 degree views never read outside the input image, return an image of the same size, and every output value is an input value (or 0 outside the circle).", "quantifier": "all image sizes and contents", "why_tests_cant": "all sizes", "anchors": ["raytools/imagetools.py:array_ang2uv", "raytools/imagetools.py:array_uv2ang"]}
{"id": "C64", "title": "imgmetric handles images without a LuminanceRGB header", "statement": "imgmetric computes colour metrics (irradiance) with the default channel weights when the header holds no usable LuminanceRGB entry.", "quantifier": "all headers and metric lists", "why_tests_cant": "decision table", "anchors": ["raytools/imagetools.py:imgmetric", "raytools/evaluate/colormetricset.py:ColorMetricSet.__init__"]}
{"id": "C65", "title": "Illuminance and average luminance are linear in luminance and scale", "statement": "illum and avglum are additive and homogeneous in lum, proportional to scale, nonnegative for nonnegative luminance in front of the viewer, and independent of the order of the rays.", "quantifier": "every ray set", "why_tests_cant": "continuum", "anchors": ["raytools/evaluate/basemetricset.py:BaseMetricSet.illum", "raytools/evaluate/basemetricset.py:BaseMetricSet.avglum"]}
{"id": "C66", "title": "Contrast metrics", "statement": "gcr >= 1 (so loggcr >= 0) for nonnegative luminances, with equality for uniform luminance, is invariant under scaling luminance, and is 1 for a black view; the same for pwgcr.", "quantifier": "every ray set", "why_tests_cant": "Cauchy-Schwarz over unbounded data", "anchors": ["raytools/evaluate/basemetricset.py:BaseMetricSet.gcr", "raytools/evaluate/basemetricset.py:BaseMetricSet.pwgcr"]}
{"id": "C67", "title": "Glare sources and background partition the view", "statement": "Every ray is either in sources or background, never both; srcillum + background illuminance = illum; hence backlum*pi is the background illuminance and is nonnegative for nonnegative luminance in front of the viewer.", "quantifier": "every ray set and threshold", "why_tests_cant": "unbounded data", "anchors": ["raytools/evaluate/metricset.py:MetricSet.src_mask", "raytools/evaluate/metricset.py:MetricSet.sources", "raytools/evaluate/metricset.py:MetricSet.background", "raytools/evaluate/metricset.py:MetricSet.backlum"]}
{"id": "C68", "title": "Glare metrics stay in range", "statement": "dgp is at most 1 and, with illuminance > 0, positive (at least 0.16 without the low light correction); ugr >= 0; ugp lies in (0,1) and is increasing in ugr; with lowlight the correction factor lies in (0,1).", "quantifier": "every ray set", "why_tests_cant": "continuum", "anchors": ["raytools/evaluate/metricset.py:MetricSet.dgp", "raytools/evaluate/metricset.py:MetricSet.ugr", "raytools/evaluate/metricset.py:MetricSet.ugp"]}
{"id": "C69", "title": "Solid angle correction", "statement": "When solid angles are corrected to the view area, the adjustment loop terminates, only rays at the view edge change, the corrected solid angles are nonnegative and sum to the view area.", "quantifier": "every ray set with positive solid angles", "why_tests_cant": "loop termination", "anchors": ["raytools/evaluate/basemetricset.py:BaseMetricSet.omega"]}
{"id": "C70", "title": "Metrics flagged safe to sum are additive over sources", "statement": "For every metric that check_safe2sum accepts, the value for a ray set split into two groups (same view area, fixed threshold) is the sum of the groups' values.", "quantifier": "every ray set and split", "why_tests_cant": "unbounded data", "anchors": ["raytools/evaluate/basemetricset.py:BaseMetricSet.check_safe2sum", "raytools/evaluate/metricset.py:MetricSet.safe2sum"]}
{"id": "C71", "title": "Metric name validation", "statement": "check_metrics returns the known names in order; with raise_error it raises exactly when some requested name is unknown; calling a metric set returns one value per requested metric in request order.", "quantifier": "every list of names", "why_tests_cant": "unbounded lists", "anchors": ["raytools/evaluate/basemetricset.py:BaseMetricSet.check_metrics", "raytools/evaluate/basemetricset.py:BaseMetricSet.__call__"]}
{"id": "C72", "title": "Constructing a metric set leaves the caller's arrays alone and corrects edge rays individually", "statement": "Each bright ray overlapping the view edge gets its own clipped solid angle; the caller's omega array is not modified.", "quantifier": "every ray set", "why_tests_cant": "needs two overlapping rays", "anchors": ["raytools/evaluate/basemetricset.py:BaseMetricSet.__init__"]}
{"id": "C73", "title": "Position index range and symmetry", "statement": "Position indices are in [1,16] with the Guth/Iwata model and positive with the Kim model, are 16 behind the viewer (Guth), 1 on the line of sight, and are symmetric left-right.", "quantifier": "every direction", "why_tests_cant": "continuum and singular directions", "anchors": ["raytools/evaluate/positionindex.py:PositionIndex"]}
{"id": "C74", "title": "Retinal point spread helper functions", "statement": "inv_hpsf inverts hpsf on nonnegative eccentricities, hpsf is in (0,1] and halves at half the fwhm; blur_sun returns a factor >= 1, equal to 1 for sources no brighter than the minimum, nondecreasing in brightness and nonincreasing in source size.", "quantifier": "all reals in range", "why_tests_cant": "continuum", "anchors": ["raytools/evaluate/retina.py:hpsf", "raytools/evaluate/retina.py:inv_hpsf", "raytools/evaluate/retina.py:blur_sun"]}
{"id": "C75", "title": "Retinal density symmetry and quadrant selection", "statement": "The binocular density is positive and symmetric left-right, and the superior and inferior meridian models are used for points above and below the horizontal respectively.", "quantifier": "every visual field position", "why_tests_cant": "continuum", "anchors": ["raytools/evaluate/retina.py:rgcf_density_xy", "raytools/evaluate/retina.py:binocular_density"]}
{"id": "C76", "title": "Point spread function energy", "statement": "The four PSF coefficients are nonnegative for pigmentation in (0,1) and sum to one for every age and pupil size, and the discrete kernel sums exactly to the captured energy.", "quantifier": "every age, pigmentation, pupil diameter", "why_tests_cant": "continuum", "anchors": ["raytools/evaluate/hvsgsm.py:GSS.psf_coef", "raytools/evaluate/hvsgsm.py:GSS.apply_psf"]}
{"id": "C77", "title": "Glare response stages stay in range", "statement": "For positive irradiance cone_response lies in (0,1) and is increasing in irradiance, decreasing in adaptation; normalized responses lie in (0,1) inside the view and are 0 outside; the pupil diameter lies strictly between 2-0.043(age-10) and 8 mm for age >= 10; the unweighted GSS is nonnegative.", "quantifier": "all inputs", "why_tests_cant": "continuum", "anchors": ["raytools/evaluate/hvsgsm.py:GSS.cone_response", "raytools/evaluate/hvsgsm.py:GSS.normalized_field_response", "raytools/evaluate/hvsgsm.py:GSS.pupil", "raytools/evaluate/hvsgsm.py:GSS.gss"]}
{"id": "C78", "title": "Receptive field bins cover every pixel once", "statement": "Every pixel's field width falls in exactly one of the 31 eccentricity bins, so the assembled field response is defined everywhere and equals the response of that bin.", "quantifier": "every eccentricity", "why_tests_cant": "continuum, bin edges", "anchors": ["raytools/evaluate/hvsgsm.py:GSS.field_response", "raytools/evaluate/hvsgsm.py:GSS.sigma_c"]}
{"id": "C79", "title": "GSS geometry is in step with its view and image", "statement": "After any sequence of loading images and changing the view, the pixel geometry (rays, solid angles, mask, eccentricity) used by compute is the one of the current view and the current image resolution.", "quantifier": "every history of image loads and view changes", "why_tests_cant": "staleness shows only for particular histories", "anchors": ["raytools/evaluate/hvsgsm.py:GSS.lum", "raytools/evaluate/hvsgsm.py:GSS.vm"]}
{"id": "C80", "title": "Colour metrics agree with luminance metrics", "statement": "For ColorMetricSet the channel weights dotted with irradiance equal illum, and calling it returns one value per scalar metric and one per channel for irradiance, in request order.", "quantifier": "every ray set and weight vector", "why_tests_cant": "unbounded data", "anchors": ["raytools/evaluate/colormetricset.py:ColorMetricSet.irradiance", "raytools/evaluate/colormetricset.py:ColorMetricSet.__call__"]}
{"id": "C81", "title": "metric command table is rectangular", "statement": "The metric command prints one header column per printed value and one row per image in input order, for every selection of metrics.", "quantifier": "every metric list and image list", "why_tests_cant": "all metric selections", "anchors": ["raytools/cli.py:metric"]}
{"id": "C82", "title": "Tolerant sky bin lookup only returns nearby bins", "statement": "For tol > 0 every bin returned by xyz2skybin(d, side, tol) has a cell containing a uv point within tol cells of the uv of d.", "quantifier": "every side, tolerance and unit direction above the horizon", "why_tests_cant": "wrap-around shows only for directions close to the border of the square", "anchors": ["raytools/translate.py:xyz2skybin", "raytools/translate.py:uv2bin"]}
{"id": "C83", "title": "Exported Radiance binning agrees with xyz2skybin", "statement": "The function text scbinscal assigns every unit direction above the horizon the same bin as xyz2skybin(d, side), and every other direction the extra bin side^2.", "quantifier": "every side and unit direction", "why_tests_cant": "two independent formulations with different axis orders must agree on a continuum including the wedge borders", "anchors": ["raytools/translate.py:scbinscal", "raytools/translate.py:xyz2skybin"]}
{"id": "C84", "title": "Exported Radiance patch directions agree with uv2xyz", "statement": "The function text scxyzcal evaluated at a bin gives uv2xyz(bin2uv(bin, side), xsign=1), for every bin of both hemispheres, as long as Radiance's FTINY is below 1/side.", "quantifier": "every side and bin number", "why_tests_cant": "all sides and bins", "anchors": ["raytools/translate.py:scxyzcal", "raytools/translate.py:bin2uv", "raytools/translate.py:uv2xyz"]}
{"id": "C85", "title": "xyz2xy is the equiangular fisheye projection", "statement": "For every unit vector and axis permutation xyz2xy returns a point whose distance from the origin is the angle to the mapped z axis over 90 degrees and whose direction is that of the mapped x, y components; flip negates only the first coordinate; positive scaling of the vector changes nothing.", "quantifier": "every unit vector, every axis permutation", "why_tests_cant": "continuum of directions", "anchors": ["raytools/translate.py:xyz2xy"]}
{"id": "C86", "title": "The view angle is the field of view", "statement": "For an angular view mapper with view angle at most 180, the rays at the edge of the inscribed image circle make exactly half the requested view angle with the view direction, so the header (-vv/-vh) written with the nominal view angle describes the image.", "quantifier": "every view direction and view angle, every point of the edge circle", "why_tests_cant": "continuum of view angles; the discrepancy vanishes at 180 degrees, the value tests use", "anchors": ["raytools/mapper/viewmapper.py:ViewMapper.dxyz", "raytools/mapper/angularmixin.py:AngularMixin.viewangle", "raytools/mapper/angularmixin.py:AngularMixin.vxy2xyz"]}
{"id": "C87", "title": "Jittered pixel grids", "statement": "pixels(res, jitter) returns an array of shape framesize(res) + (2,) for every resolution and every jitter rate, with each jittered coordinate inside its own pixel.", "quantifier": "every resolution, frame shape, jitter rate and random draw", "why_tests_cant": "the random array's shape only broadcasts for a few sizes, so one passing size proves nothing", "anchors": ["raytools/mapper/mapper.py:Mapper.pixels", "raytools/mapper/mapper.py:Mapper.framesize"]}
{"id": "C88", "title": "Frame size keeps the aspect ratio", "statement": "framesize(res) of a planar mapper has its longer side equal to res and the other side within half a pixel of the exact aspect ratio.", "quantifier": "every view box and every resolution", "why_tests_cant": "continuum of boxes and every resolution", "anchors": ["raytools/mapper/mapper.py:Mapper.framesize", "raytools/mapper/mapper.py:Mapper.bbox"]}
{"id": "C89", "title": "Integer-valued arguments behave like their float equivalents", "statement": "Passing an integer array to a coordinate transform (vxy2xyz of either mapper kind, tpnorm, tp2xyz, uv2xyz) gives the same result as passing the same numbers as floats.", "quantifier": "every array of integer values and every transform", "why_tests_cant": "the behaviour depends on the dtype of the caller's array as well as on the values; truncation is invisible at some integers", "anchors": ["raytools/translate.py:tpnorm", "raytools/translate.py:tp2xyz", "raytools/mapper/angularmixin.py:AngularMixin.vxy2xyz", "raytools/mapper/mapper.py:Mapper.vxy2xyz"]}
{"id": "C90", "title": "View area is the solid angle of the accepted rays", "statement": "The area of an angular view mapper is the solid angle of the cone of rays that in_view accepts (the whole sphere for a 360 degree view).", "quantifier": "every view direction and view angle", "why_tests_cant": "continuum of view angles; the two coincide at 180 and 360 degrees, the values tests use", "anchors": ["raytools/mapper/viewmapper.py:ViewMapper.dxyz", "raytools/mapper/angularmixin.py:AngularMixin.viewangle", "raytools/mapper/viewmapper.py:ViewMapper.in_view"]}
{"id": "C91", "title": "transform_to moves an image from its own view to another", "statement": "self.transform_to(image, other) takes an image made for self and returns the image for other: where a pixel of other and a pixel of self see the same direction, the result has the value of the latter.", "quantifier": "every pair of angular views, every image and every pair of pixels seeing the same direction", "why_tests_cant": "continuum of view pairs; with identical or symmetric views the direction of the transformation is invisible", "anchors": ["raytools/mapper/viewmapper.py:ViewMapper.transform_to"]}
{"id": "C92", "title": "The Guth/Iwata position index grows with eccentricity", "statement": "Moving a source away from the line of sight, keeping its direction around it, never lowers the position index computed with guth=True.", "quantifier": "every view direction, every direction around the line of sight and every pair of eccentricities in (0, 180] degrees", "why_tests_cant": "continuum; the index is piecewise (below the line of sight and behind the viewer are separate branches)", "anchors": ["raytools/evaluate/positionindex.py:PositionIndex.positions"]}
{"id": "C93", "title": "Ganglion cell field density at the fovea", "statement": "The field density models of the four meridians fall strictly with eccentricity and agree at the fovea.", "quantifier": "every meridian and eccentricity", "why_tests_cant": "continuum; a check of a value away from the fovea cannot see that the foveal density multiplies only one of two weighted terms", "anchors": ["raytools/evaluate/retina.py:rgcf_density_on_meridian"]}
{"id": "C94", "title": "Retinal densities do not depend on the dtype of the coordinates", "statement": "Integer coordinates give the same density as the equal float coordinates.", "quantifier": "every visual field position with integer coordinates", "why_tests_cant": "the behaviour depends on the dtype of the caller's array as well as on the values", "anchors": ["raytools/evaluate/retina.py:rgcf_density_xy"]}
{"id": "C95", "title": "Local adaptation follows the light", "statement": "A pixel with more retinal irradiance than another, in the same surroundings, never gets a lower adaptation level.", "quantifier": "every nonnegative pair of irradiances and every surrounding mean", "why_tests_cant": "continuum; the exception is the single value zero, where the level jumps", "anchors": ["raytools/evaluate/hvsgsm.py:GSS.local_eye_adaptation"]}
{"id": "C96", "title": "Every square image can be loaded", "statement": "Assigning a square image to lum succeeds for every view and every nonnegative pixel values.", "quantifier": "every view and every square image", "why_tests_cant": "the failing images are those with no light inside the view", "anchors": ["raytools/evaluate/hvsgsm.py:GSS.lum"]}
{"id": "C97", "title": "An image without a view uses the default view", "statement": "GSS built from an image whose header has no view specification uses the default 180 degree view and loads the image.", "quantifier": "every file header", "why_tests_cant": "depends on how a missing view travels through two error handlers", "anchors": ["raytools/evaluate/hvsgsm.py:GSS.__init__", "raytools/evaluate/hvsgsm.py:GSS.vm"]}
{"id": "C98", "title": "gss_compute scores each image on its own", "statement": "For every number of workers and every schedule, the scores returned are those of each image evaluated by itself, in its own view, in the order given.", "quantifier": "every list of images, worker count and schedule", "why_tests_cant": "shared instance and schedules", "anchors": ["raytools/evaluate/hvsgsm.py:gss_compute", "raytools/evaluate/hvsgsm.py:process_gss"]}
{"id": "C99", "title": "The window of the point spread kernel", "statement": "The energy the line spread function puts in a strip strictly exceeds the energy the point spread function puts in the disc of the same half width, so the kernel built from the strip energy spreads more light than the disc holds.", "quantifier": "every age, pigmentation, pupil and window", "why_tests_cant": "an analytic inequality over a continuum", "anchors": ["raytools/evaluate/hvsgsm.py:GSS.psf_coef", "raytools/evaluate/hvsgsm.py:GSS.apply_psf"]}
{"id": "C100", "title": "The pupil never opens with more light", "statement": "With more light at the eye the pupil area is never larger.", "quantifier": "every observer age and pair of illuminances", "why_tests_cant": "continuum; fails only for older observers", "anchors": ["raytools/evaluate/hvsgsm.py:GSS.pupil"]}
{"id": "C101", "title": "Position weighting of the score", "statement": "The position weight is between 9.8 and 33.5 for every mean field width, the mean field width of a loaded image is within the range of field widths, the weighted score is never negative, and a glare source farther from the line of sight never weighs more.", "quantifier": "every mean field width and every image", "why_tests_cant": "continuum; a polynomial of degree 4 has no sign visible from samples", "anchors": ["raytools/evaluate/hvsgsm.py:GSS.gss", "raytools/evaluate/hvsgsm.py:GSS.ecc"]}
{"id": "C102", "title": "A uniform field stays uniform", "statement": "A field of equal luminance gives the same ratio at every pixel through every stage, and its response is the one of that ratio.", "quantifier": "every luminance, observer and resolution", "why_tests_cant": "all sizes and values; every stage must preserve constants", "anchors": ["raytools/evaluate/hvsgsm.py:GSS.compute", "raytools/evaluate/hvsgsm.py:GSS.apply_psf", "raytools/evaluate/hvsgsm.py:GSS.apply_eye_movement_2"]}
{"id": "C103", "title": "Which view the geometry of a GSS instance belongs to", "statement": "After every history of view changes and square images the pixel geometry is that of the view in force when the image size last changed.", "quantifier": "every history of view changes and square images", "why_tests_cant": "histories are unbounded", "anchors": ["raytools/evaluate/hvsgsm.py:GSS.lum", "raytools/evaluate/hvsgsm.py:GSS.vm"]}
{"id": "C104", "title": "Peak normalisation conserves every channel", "statement": "normalize_peak keeps the total of radiance times solid angle of every colour channel.", "quantifier": "every ray set, threshold, solid angle and tolerance", "why_tests_cant": "continuum of ray sets; the failing branch needs a partial sun whose rays differ in colour", "anchors": ["raytools/imagetools.py:normalize_peak", "raytools/imagetools.py:find_peak"]}
{"id": "C105", "title": "The consolidated source is not brighter than the brightest ray", "statement": "The source that normalize_peak puts in place of the bright rays is never brighter than the brightest ray it was given.", "quantifier": "every ray set and parameters", "why_tests_cant": "continuum of ray sets; depends on the relation of pixel and source size", "anchors": ["raytools/imagetools.py:normalize_peak", "raytools/imagetools.py:find_peak"]}
{"id": "C106", "title": "Directions of secondary sources", "statement": "The direction reported for every secondary source is a unit vector inside the cone of the brightest ray of its group.", "quantifier": "every ray set", "why_tests_cant": "continuum of ray sets; a mean of unit vectors is a unit vector only when they coincide", "anchors": ["raytools/imagetools.py:gather_strays", "raytools/imagetools.py:find_peak"]}
{"id": "C107", "title": "The LuminanceRGB header acts like explicit weights", "statement": "imgmetric on an image whose header holds three LuminanceRGB numbers returns what it returns when the same numbers are passed as lumrgb.", "quantifier": "every image, header entry, metric list and peak option", "why_tests_cant": "decision table over a continuum of weights; a tolerance hides the difference near the default", "anchors": ["raytools/imagetools.py:imgmetric", "raytools/imagetools.py:hdr2vol", "raytools/io.py:hdr2array"]}
{"id": "C108", "title": "imgmetric evaluates every pixel once, with the caller's options", "statement": "The values imgmetric returns are the attributes of the requested names of the metric set made of all pixels, each with its own direction, solid angle and value, with the scale, threshold and lowlight options of the caller; peak normalisation changes nothing when no pixel is above the threshold.", "quantifier": "every image, view, metric list and options", "why_tests_cant": "every pixel of every size; a transposition or exchanged option is invisible on symmetric test images", "anchors": ["raytools/imagetools.py:imgmetric", "raytools/imagetools.py:hdr2vol"]}
{"id": "C109", "title": "Equisolid/equiangular conversion follows the projection laws", "statement": "Converting an equisolid fisheye image to equiangular (and back) makes every pixel inside the view circle read the source image on the same ray from the centre at the distance the two projection laws give, makes every pixel outside zero, and raises ValueError for view angles above 180 degrees and for images that are not square.", "quantifier": "every square image, every view angle up to 180, every pixel, every interpolator", "why_tests_cant": "a relation between two real functions at every pixel of every resolution", "anchors": ["raytools/imagetools.py:array_solid2ang", "raytools/imagetools.py:hdr_solid2ang", "raytools/mapper/viewmapper.py:solid_vxy2xyz", "raytools/mapper/viewmapper.py:solid_xyz2vxy"]}
{"id": "C110", "title": "Rotating an image turns its content by the angle", "statement": "Rotating a 180 degree fisheye image by an angle makes every pixel read the source at its own position turned by that angle about the centre; images that are not square raise ValueError.", "quantifier": "every resolution, angle and pixel", "why_tests_cant": "every real angle and position, including positions behind the observer in the corners", "anchors": ["raytools/imagetools.py:array_rotate"]}
{"id": "C111", "title": "Rotating by zero returns the image", "statement": "array_rotate with angle zero and no centre returns the image unchanged.", "quantifier": "every square image, both interpolation methods", "why_tests_cant": "every image; a shift by half a pixel is invisible on smooth test images", "anchors": ["raytools/imagetools.py:array_rotate"]}
{"id": "C112", "title": "Quarter turns permute pixels", "statement": "array_rotate by multiples of 90 degrees without centre permutes the pixels exactly as np.rot90 does.", "quantifier": "every square image and every multiple of 90", "why_tests_cant": "every image and size", "anchors": ["raytools/imagetools.py:array_rotate"]}
{"id": "C113", "title": "Centring moves the given point to the middle", "statement": "array_rotate with a centre makes the middle of the result read the source at that centre, as one rigid rotation of the sphere; a centre of fewer than two numbers raises ValueError.", "quantifier": "every resolution, centre and angle", "why_tests_cant": "every centre position, including the corners and those near the zenith", "anchors": ["raytools/imagetools.py:array_rotate", "raytools/translate.py:rmtx_yp"]}
{"id": "C114", "title": "Four number alignment moves the first point to the second", "statement": "array_rotate with four numbers makes the pixel at the second position read the source at the first.", "quantifier": "every resolution and pair of positions", "why_tests_cant": "every pair of positions", "anchors": ["raytools/imagetools.py:array_rotate"]}
{"id": "C115", "title": "The order option decides whether rotation or centring comes first", "statement": "With the rotate-first option the image is turned about its own centre before the given point is moved to the middle, without it after; the results are those of the two separate calls in that order.", "quantifier": "every angle and centre", "why_tests_cant": "geometric identity over all angles and positions", "anchors": ["raytools/imagetools.py:array_rotate", "raytools/imagetools.py:hdr_rotate"]}
{"id": "C116", "title": "Rotation and alignment invent no light", "statement": "Every value of array_rotate lies between the smallest and the largest value of the image (and the fill value), and a uniform image stays uniform.", "quantifier": "every image, angle, centre, interpolation method", "why_tests_cant": "every image; overshoot depends on the position of bright pixels", "anchors": ["raytools/imagetools.py:array_rotate"]}
{"id": "C117", "title": "Header lines are handed to the image writer unchanged", "statement": "When an image is written with header lines, each line is passed to getinfo as exactly one argument with the same text, whatever characters it holds.", "quantifier": "every list of header lines", "why_tests_cant": "every text, including quotes, blanks and backslashes in any position", "anchors": ["raytools/io.py:_array2hdr"]}
{"id": "C118", "title": "Image paths reach the Radiance tools unchanged", "statement": "Reading an image or its header starts pvalue or getinfo with the path the caller gave as one argument.", "quantifier": "every path", "why_tests_cant": "every text, including blanks and quotes", "anchors": ["raytools/io.py:hdr2array", "raytools/io.py:hdr2carray", "raytools/io.py:hdr_header"]}
{"id": "C119", "title": "A conversion does not write over its input", "statement": "Without an explicit output, hdr_uv2ang, hdr_ang2uv, hdr_solid2ang and hdr_rotate never write to the path they read.", "quantifier": "every path, every rotation, centre and order", "why_tests_cant": "every path and setting; the dangerous ones are defaults", "anchors": ["raytools/imagetools.py:hdr_uv2ang", "raytools/imagetools.py:hdr_ang2uv", "raytools/imagetools.py:hdr_solid2ang", "raytools/imagetools.py:hdr_rotate"]}
{"id": "C120", "title": "Converted images are written next to the original", "statement": "Without an explicit output the result is written to the directory of the input.", "quantifier": "every path and setting", "why_tests_cant": "every path, including dots in directory names", "anchors": ["raytools/imagetools.py:hdr_uv2ang", "raytools/imagetools.py:hdr_ang2uv", "raytools/imagetools.py:hdr_solid2ang", "raytools/imagetools.py:hdr_rotate"]}
{"id": "C121", "title": "Different inputs are converted to different files", "statement": "Two different input paths converted with the same settings have different output paths.", "quantifier": "every pair of paths, every setting", "why_tests_cant": "every pair of paths", "anchors": ["raytools/imagetools.py:hdr_uv2ang", "raytools/imagetools.py:hdr_ang2uv", "raytools/imagetools.py:hdr_solid2ang", "raytools/imagetools.py:hdr_rotate"]}
{"id": "C122", "title": "Different alignments of one image are written to different files", "statement": "Two alignments of the same image that write the same file have the same angle and centre (and the same order when both are given).", "quantifier": "every path, every pair of settings", "why_tests_cant": "every pair of angles, centres and orders", "anchors": ["raytools/imagetools.py:hdr_rotate"]}
{"id": "C123", "title": "A batch of conversions is independent of the schedule", "statement": "However the conversions of a batch (project, align, solid2ang) interleave in the worker processes, the files and the answer of the command are those of converting every image on its own, starting from the files as they were before the batch.", "quantifier": "every list of conversions, every initial file content, every interleaving of their steps including partial writes", "why_tests_cant": "the number of interleavings is unbounded", "anchors": ["raytools/cli.py:project", "raytools/cli.py:align", "raytools/cli.py:solid2ang", "raytools/utility.py:pool_call", "raytools/imagetools.py:hdr_uv2ang", "raytools/imagetools.py:hdr_ang2uv", "raytools/imagetools.py:hdr_solid2ang", "raytools/imagetools.py:hdr_rotate"]}
{"id": "C124", "title": "A failed or interrupted conversion leaves the files alone", "statement": "A conversion that raises leaves every file as it was; an interrupted one never touches anything but its own output.", "quantifier": "every conversion, every file content, every point of interruption", "why_tests_cant": "every crash point and header", "anchors": ["raytools/io.py:_array2hdr", "raytools/imagetools.py:hdr_rotate", "raytools/cli.py:align"]}
{"id": "C125", "title": "The header of a converted image describes the image", "statement": "The view in the header of a converted image is one of the projection the image has, looking the way the image looks.", "quantifier": "every picture, header and setting of project, align, solid2ang and cleanheader", "why_tests_cant": "every header", "anchors": ["raytools/imagetools.py:hdr_uv2ang", "raytools/imagetools.py:hdr_ang2uv", "raytools/imagetools.py:hdr_solid2ang", "raytools/imagetools.py:hdr_rotate", "raytools/io.py:hdr_header", "raytools/io.py:_array2hdr"]}
{"id": "C126", "title": "solid2ang uses the view size of the header", "statement": "Without an explicit view angle the conversion between equisolid and angular images uses the size of the view in the header, and 180 degrees if there is no view.", "quantifier": "every header, view, projection and image size", "why_tests_cant": "every header", "anchors": ["raytools/imagetools.py:hdr_solid2ang", "raytools/imagetools.py:hdr2vm", "raytools/cli.py:solid2ang"]}
{"id": "C127", "title": "hdr_header returns the header", "statement": "hdr_header returns the lines of the header behind the magic line, under a title with the path; missing and damaged files are reported.", "quantifier": "every path, every list of header lines", "why_tests_cant": "every header text", "anchors": ["raytools/io.py:hdr_header"]}
{"id": "C128", "title": "project uses the view of the header", "statement": "With useview, the square version of an image is made with the direction and size of the view in its header; without, and for images without a view, with 180 degrees along y.", "quantifier": "every header, view, projection and image size", "why_tests_cant": "every header", "anchors": ["raytools/imagetools.py:hdr_ang2uv", "raytools/imagetools.py:hdr2vm", "raytools/cli.py:project"]}
{"id": "C129", "title": "Cleaning a header twice is cleaning it once", "statement": "clean_header(clean_header(h)) = clean_header(h).", "quantifier": "every header", "why_tests_cant": "unbounded headers and nesting", "anchors": ["raytools/io.py:CleanHeader", "raytools/io.py:clean_header"]}
{"id": "C130", "title": "Cleaning a header comes to an end", "statement": "clean_header returns (a value or an exception) for every header.", "quantifier": "every header, any number of lines of any length", "why_tests_cant": "non-termination cannot be observed by a test", "anchors": ["raytools/io.py:CleanHeader.text", "raytools/io.py:clean_header"]}
{"id": "C131", "title": "Lines of a cleaned header are at most 150 characters long", "statement": "No line returned by clean_header is longer than 150 characters (longer ones make pfs tools fail).", "quantifier": "every header", "why_tests_cant": "unbounded headers", "anchors": ["raytools/io.py:CleanHeader.text"]}
{"id": "C132", "title": "A cleaned header reads like the header itself", "statement": "header_items of the cleaned header gives, for every key, the same words as header_items of the header.", "quantifier": "every header, any length of its values", "why_tests_cant": "unbounded headers and lengths, every place a line may be broken", "anchors": ["raytools/io.py:clean_header", "raytools/io.py:header_items", "raytools/io.py:CleanHeader.text"]}
{"id": "C133", "title": "Values stay with their keys", "statement": "In a header without continuation lines, every word of a value in the cleaned header belongs to the same key in the given header.", "quantifier": "every header", "why_tests_cant": "unbounded headers", "anchors": ["raytools/io.py:CleanHeader._preprocess"]}
{"id": "C134", "title": "smooth without y prints a probability density", "statement": "Without y columns, whatever the output points, the values the smooth command prints are values of one continuous, non-negative function whose integral over the line is 1; the command refuses the data exactly when they have no spread (fewer than two rows, or all x equal).", "quantifier": "all tables, all sigma and scale factors other than 0 (also the default), all output points", "why_tests_cant": "the integral over all reals and the freedom of the output points cannot be sampled", "anchors": ["raytools/cli.py: smooth"]}
{"id": "C135", "title": "smooth does not depend on the unit of x", "statement": "With the default width, measuring x in another unit leaves smoothed y values as they are and divides a density by the unit.", "quantifier": "all tables, unit factors, output points and scale factors", "why_tests_cant": "a law over all data and factors", "anchors": ["raytools/cli.py: smooth", "raytools/translate.py: non_uniform_gaussian_filter"]}
{"id": "C136", "title": "smooth does not depend on the origin of x", "statement": "Adding a constant to every x (and to the output points, if they are given) adds that constant to every printed x and changes nothing else, for densities and for y columns, with a given or the default width.", "quantifier": "all tables with a row, constants, output points, widths and scale factors", "why_tests_cant": "a law over all data and shifts", "anchors": ["raytools/cli.py: smooth"]}
{"id": "C137", "title": "the order of the rows does not matter to smooth", "statement": "Two files with the same rows in different order print the same.", "quantifier": "all tables and permutations of their rows, all options", "why_tests_cant": "all permutations", "anchors": ["raytools/cli.py: smooth", "raytools/translate.py: non_uniform_gaussian_filter"]}
{"id": "C138", "title": "smooth reads the named columns", "statement": "x and the y values are the columns of the file with the given numbers, negative numbers counting from the right; a column the file does not have raises IndexError.", "quantifier": "all rectangular tables, column numbers and options", "why_tests_cant": "all shapes of tables", "anchors": ["raytools/cli.py: smooth"]}
{"id": "C139", "title": "where smooth prints values", "statement": "Asked for a number of points (2 or more) the command prints that many rows (decimals cut), the first at the smallest x, the last at the largest, evenly spaced; several explicit points are used as given.", "quantifier": "all tables, numbers of points and options for which the command succeeds", "why_tests_cant": "all data and counts", "anchors": ["raytools/cli.py: smooth"]}
{"id": "C140", "title": "smooth prints weighted averages of the column", "statement": "With y columns and a positive width, every printed value is the average of its column with each row weighted by the normal density of its distance in x from the output point; so it stays between the smallest and the largest value of the column.", "quantifier": "all tables, output points, widths and scale factors giving a positive width", "why_tests_cant": "all data", "anchors": ["raytools/cli.py: smooth", "raytools/translate.py: non_uniform_gaussian_filter"]}
{"id": "C141", "title": "how init_img reads the name of a projection", "statement": "Every non-empty projection name is accepted and the empty one raises IndexError; the documented names select the documented projection; a name beginning with vt is decided by its last letter, any other by its first letter, ignoring case; the normalised name selects itself again.", "quantifier": "all strings", "why_tests_cant": "all strings", "anchors": ["raytools/mapper/angularmixin.py: init_img", "raytools/mapper/viewmapper.py: init_img"]}
{"id": "C142", "title": "init_img returns one vector per pixel", "statement": "The vectors returned by init_img have one entry per row and column of the image, which is res wide and res (or for 360 degree views 2 res) high.", "quantifier": "all views, resolutions, feature counts and projection names", "why_tests_cant": "all views and sizes", "anchors": ["raytools/mapper/viewmapper.py: init_img", "raytools/mapper/angularmixin.py: init_img"]}
{"id": "C143", "title": "the mask of init_img is the view", "statement": "The mask returned by init_img lists every pixel whose vector is in view, once, in row order, and the boolean form of the mask says the same; for the angular projection that is the set of pixels whose centre lies inside the inscribed circle of each half of the image.", "quantifier": "all views, resolutions and feature counts", "why_tests_cant": "all pixels of all images", "anchors": ["raytools/mapper/angularmixin.py: init_img, in_view", "raytools/mapper/viewmapper.py: init_img"]}
{"id": "C144", "title": "the colour mask of init_img addresses pixel and channel", "statement": "Assigning to a colour image through the second mask one row of values per pixel of the mask puts the value of pixel n and channel c in channel c of pixel n and leaves the rest of the image alone.", "quantifier": "all views, resolutions, channel counts above one, images and values", "why_tests_cant": "all images", "anchors": ["raytools/mapper/angularmixin.py: init_img"]}
{"id": "C145", "title": "the header of an angular init_img image describes its vectors", "statement": "Reading back the header written for an angular image gives a mapper whose pixel rays are the vectors of the image.", "quantifier": "all directions, view angles, mapper kinds, resolutions and surrounding header lines", "why_tests_cant": "all views", "anchors": ["raytools/mapper/angularmixin.py: init_img, header", "raytools/mapper/solidviewmapper.py", "raytools/imagetools.py: hdr2vm"]}
{"id": "C146", "title": "the square image of init_img has one vector per square of the mapper", "statement": "The vector of pixel (i, j) of a square image lies in cell (i, j) of the square of that resolution.", "quantifier": "all directions, view angles, resolutions and pixels", "why_tests_cant": "all pixels", "anchors": ["raytools/mapper/viewmapper.py: init_img", "raytools/translate.py: bin2uv, uv2ij"]}
{"id": "C147", "title": "the equisolid methods of an angular mapper", "statement": "For views up to 180 degrees they are the transforms of the equisolid mapper, and the ray of every pixel centre inside the circle is in that pixel again; for 360 degree views every direction has a pixel.", "quantifier": "all directions, view angles, resolutions and pixels", "why_tests_cant": "all rays", "anchors": ["raytools/mapper/viewmapper.py: solid_xyz2vxy, solid_vxy2xyz, solid_ray2pixel, solid_pixel2ray"]}
{"id": "C148", "title": "init_img of a planar mapper", "statement": "The vectors of a planar image are one per pixel in row order and all are in view; the mask selects pixels of the image.", "quantifier": "all planar mappers and frame sizes", "why_tests_cant": "all boxes", "anchors": ["raytools/mapper/mapper.py: init_img, in_view"]}
{"id": "C149", "title": "no pixel is given a larger solid angle than the centre pixel", "statement": "The solid angle pixel2omega gives to any pixel of the view is at most (2 sin(p/2))^2 where p is the pixel's side in radians at the centre of the view, and the centre pixel is given exactly that.", "quantifier": "all directions, view angles up to 180 degrees, resolutions of at least four pixels (any for views up to 90 degrees) and all pixels of the view", "why_tests_cant": "all pixels of all images", "anchors": ["raytools/mapper/angularmixin.py: pixel2omega, vxy2xyz"]}
{"id": "C150", "title": "the eye's blur of a point is symmetric", "statement": "The point spread kernel of the glare model is unchanged when mirrored left to right, top to bottom or along the diagonal.", "quantifier": "all ages up to 100, pigmentations, pupils of 1 to 8 mm, window widths up to 90 degrees, view angles and resolutions", "why_tests_cant": "all eyes and resolutions", "anchors": ["raytools/evaluate/hvsgsm.py: GSS.prep_kernel, GSS.apply_psf"]}
{"id": "C151", "title": "the eye's blur has the scale of the image", "statement": "When the window is a whole number of pixels, a direction some pixels from the centre of the kernel is as far from its centre as the direction the same number of pixels from the centre of the image.", "quantifier": "all view directions and angles, window widths, resolutions and offsets", "why_tests_cant": "all views", "anchors": ["raytools/evaluate/hvsgsm.py: GSS.prep_kernel, GSS.lum", "raytools/mapper/viewmapper.py: aspect"]}
{"id": "C152", "title": "a cleaned header can be cleaned again", "statement": "The lines returned by clean_header are accepted by clean_header: a second cleaning raises no exception.", "quantifier": "every header for which clean_header returns", "why_tests_cant": "the second pass depends on where the first one wrapped its lines", "anchors": ["raytools/io.py:clean_header", "raytools/io.py:CleanHeader"]}
{"id": "C153", "title": "Physical laws of the eye", "statement": "The pupil area used by GSS is the area of a disc with the pupil diameter; the retinal irradiance is proportional to luminance and pupil area and the same for an eye of other size and equal proportions; the exposure used for eye movements depends only on pupil area times luminance, is 0.1 s at one troland and falls tenfold when the light grows by 10^(25/3); the dark adapted half saturation is 5.701055; a field at the level the cones are adapted to gives less than half of the full response, and tends to half of it in bright light.", "quantifier": "every age from 10 to 56, every positive illuminance, luminance, pupil area and focal length", "why_tests_cant": "laws over a continuum of inputs and limits at infinity; tests only compare sample values", "anchors": ["raytools/evaluate/hvsgsm.py: GSS.pupil, GSS.retinal_irradiance, GSS.apply_eye_movement_2, GSS.cone_response"]}
{"id": "C154", "title": "Field widths depend on the direction only", "statement": "The width of the receptive field GSS uses for a direction is 0.009 at the line of sight and grows with the angle to 0.12 at 95 degrees to the sides, 55 degrees above and 85 degrees below; it is the same in every view that shows the direction.", "quantifier": "every view direction, view angle up to 180 degrees and direction in view", "why_tests_cant": "ranges over all directions and views", "anchors": ["raytools/evaluate/hvsgsm.py: GSS.sigma_c"]}
{"id": "C155", "title": "An output comes from one version of its input", "statement": "The image written by a conversion of a batch is what the conversion makes of one version of its input file, a content the file had at some moment.", "quantifier": "every batch, every interleaving of the conversions, every file content", "why_tests_cant": "depends on the schedule of worker processes that start several readers each", "anchors": ["raytools/io.py: hdr2carray, hdr2array, hdr_header", "raytools/imagetools.py: hdr_uv2ang", "raytools/utility.py: pool_call"]}
{"id": "C156", "title": "Header lines indented with spaces are nested like lines indented with tabs", "statement": "Cleaning a header whose lines are indented with spaces, tabs or any mixture gives the same lines as cleaning the header in which every line begins with one tab for each tab and for each four consecutive spaces of its inset; spaces left over in a run do not count.", "quantifier": "all sequences of non-blank lines, all insets of spaces and tabs, all header widths and ways of wrapping", "why_tests_cant": "the inset is rewritten by two chained replacements whose effect depends on how spaces and tabs alternate; tests try a few insets", "anchors": ["raytools/io.py: CleanHeader._preprocess", "raytools/io.py: CleanHeader.spacespertab"]}
{"id": "C157", "title": "The blurs of the eye model are fixed in degrees and narrow with light", "statement": "The widths of all blurs of the glare model (adaptive and direct eye movement, centre and surround of the receptive fields) are proportional to the pixels per degree, so with a filter given in degrees the response and the score do not depend on the resolution; k times as much adapting light narrows both passes of the direct eye movement by k^0.06.", "quantifier": "all filters, images, switches of the observer, adaptation levels and positive pixels per degree", "why_tests_cant": "a missing or inverted factor changes results only at other resolutions than those tried", "anchors": ["raytools/evaluate/hvsgsm.py: GSS.apply_eye_movement_1", "raytools/evaluate/hvsgsm.py: GSS.apply_eye_movement_2", "raytools/evaluate/hvsgsm.py: GSS.field_response"]}
{"id": "C158", "title": "Sums over the pixels of a view tend to integrals over its directions", "statement": "For every continuous function of the direction, the sum over the pixels in view of the function at the pixel's ray times the pixel's solid angle tends to the integral of the function over the cone of directions in view when the resolution of the angular image grows. In particular the solid angles add up to that of the cone, the cosines to the illuminance of a uniform cone, and the illuminance of the eye model to the integral of luminance times cosine (pi times the luminance for a uniform hemisphere).", "quantifier": "all view directions clear of the axis tolerance, all view angles up to 180 degrees, all continuous functions", "why_tests_cant": "a limit over all resolutions; any fixed resolution only shows an approximate sum, and a wrong Jacobian near the edge of the image can hide in the tolerance", "anchors": ["raytools/mapper/mapper.py:pixelrays", "raytools/mapper/angularmixin.py:pixel2omega", "raytools/mapper/angularmixin.py:in_view", "raytools/evaluate/hvsgsm.py:GSS.adapt"]}
{"id": "C159", "title": "The metrics of an image tend to those of the scene it shows", "statement": "When the resolution of an angular image grows, the illuminance and the average luminance computed for it tend to the illuminance and the average luminance of the scene within the view angle; for an image of one luminance the average is that luminance.", "quantifier": "all view directions clear of the axis tolerance, all view angles up to 180 degrees, all continuous luminances without strays, all options of the metric set", "why_tests_cant": "a limit over all resolutions that involves the correction of solid angles at the edge of the view, which depends on the resolution", "anchors": ["raytools/imagetools.py:hdr2vol", "raytools/imagetools.py:imgmetric", "raytools/evaluate/basemetricset.py:BaseMetricSet.omega", "raytools/evaluate/basemetricset.py:BaseMetricSet.illum", "raytools/evaluate/basemetricset.py:BaseMetricSet.avglum"]}
{"id": "C160", "title": "Averages of a metric set lie between the extremes of the scene", "statement": "The averages over rays, over solid angles, over position weights, over the task area and over the background, and the maximum, lie between the least and the greatest luminance of the rays (times the scale). For a scene of one luminance they all equal it.", "quantifier": "all metric sets with at least one ray and positive solid angles, all scales, view directions and position index models", "why_tests_cant": "a wrong weight or normalisation shows only for some distributions of luminance and solid angle", "anchors": ["raytools/evaluate/basemetricset.py:BaseMetricSet.avglum", "raytools/evaluate/basemetricset.py:BaseMetricSet.pwavglum", "raytools/evaluate/basemetricset.py:BaseMetricSet.avgraylum", "raytools/evaluate/metricset.py:MetricSet.tasklum", "raytools/evaluate/metricset.py:MetricSet.backlum_true"]}
{"id": "C161", "title": "Sources and position weights of the glare formulas", "statement": "The weight of a ray falls with the square of its position index and never exceeds its solid angle; one source contributes its squared luminance times solid angle over the squared index. With a relative threshold the sources are the rays brighter than that multiple of the task average, do not depend on the unit of luminance, and k times as much light raises the unified glare rating by 8 log10 k; with an absolute threshold they are the rays brighter than it. A uniform scene has no sources, rating zero and the glare probability of its illuminance; for one source the glare probability has the published logarithmic form.", "quantifier": "all metric sets with nonnegative solid angles, thresholds of both kinds, positive factors", "why_tests_cant": "relations between runs on different scenes and units; a test compares one scene with stored numbers", "anchors": ["raytools/evaluate/basemetricset.py:BaseMetricSet.pweight", "raytools/evaluate/metricset.py:MetricSet.threshold", "raytools/evaluate/metricset.py:MetricSet.sources", "raytools/evaluate/metricset.py:MetricSet.pwsl2", "raytools/evaluate/metricset.py:MetricSet.dgp", "raytools/evaluate/metricset.py:MetricSet.ugr"]}
{"id": "C162", "title": "The light that reaches the retina", "statement": "The pupil area used by the glare sensation model is that of a disc as wide as the pupil. The light that enters through it from a patch of the field is the light on the image of the patch on the retina, whose area is its solid angle times the square of the focal length. Around 1600 lux the pupil width is symmetric on a logarithmic scale between 8 mm and 2 mm. The half saturation of a cone is 5.701055 in the dark and always above the irradiance it is adapted to. An eye that looks at a uniform field and is adapted to it responds at every pixel with less than 14 % on and 0.5 % off response.", "quantifier": "all ages up to 126 for the disc and all positive illuminances, focal lengths, pupil areas, luminances, adapting irradiances, scenes and combinations of the blur stages", "why_tests_cant": "a wrong factor in a stage changes every value and no fixed input shows the law; the bound must hold for every luminance and scene", "anchors": ["raytools/evaluate/hvsgsm.py:GSS.pupil", "raytools/evaluate/hvsgsm.py:GSS.retinal_irradiance", "raytools/evaluate/hvsgsm.py:GSS.local_eye_adaptation", "raytools/evaluate/hvsgsm.py:GSS.cone_response", "raytools/evaluate/hvsgsm.py:GSS.glare_response"]}
{"id": "C163", "title": "The pixel round trip survives rounding", "statement": "In floating point arithmetic ray2pixel(pixel2ray(centre of pixel)) returns that pixel for every angular view mapper of one hemisphere whose pixels are wider than a millionth of 180 degrees. The position found is off by less than 3e-7 of the image at 180 degrees.", "quantifier": "every rounding of the elementary operations to within one unit in the last place of a double (four for trigonometric functions), every view direction and error of the rotation angles, every view angle, resolution and pixel", "why_tests_cant": "the loss of precision of sqrt(1 - z*z) near the image centre depends on the library, the view angle and the resolution; tests see one library and a few sizes", "anchors": ["raytools/mapper/mapper.py:Mapper.ray2pixel", "raytools/mapper/mapper.py:Mapper.pixel2ray", "raytools/mapper/angularmixin.py:AngularMixin.vxy2xyz", "raytools/mapper/angularmixin.py:AngularMixin.xyz2vxy", "raytools/translate.py:xyz2xy", "raytools/translate.py:rmtx_yp"]}
{"id": "C164", "title": "Cell indices survive rounding", "statement": "In floating point arithmetic uv2bin(bin2uv(b, side, offset), side) is b, and uv2idx(idx2uv(i)) is i.", "quantifier": "every rounding of the operations within one unit in the last place, every side, bin, index, offset or jitter draw", "why_tests_cant": "whether (k/n)*n falls below k depends on k and n; the unit test of the corner uses side 10, where it does not", "anchors": ["raytools/translate.py:bin2uv", "raytools/translate.py:uv2bin", "raytools/translate.py:uv2ij", "raytools/mapper/mapper.py:Mapper.idx2uv", "raytools/mapper/mapper.py:Mapper.uv2idx"]}
{"id": "C165", "title": "Metrics are accurate up to rounding in any order", "statement": "Computed in floating point, illuminance, average luminance, contrast ratio and background luminance differ from their exact values by a multiple of the unit roundoff that grows with the number of additions behind each other, whatever the order and grouping of the rays. The contrast ratio is at least one up to that error and the background luminance is not negative.", "quantifier": "every rounding of the operations within one unit in the last place, every set of rays with nonnegative luminance, every order and grouping of the sums", "why_tests_cant": "numpy groups sums by array length and processor; a test sees one grouping", "anchors": ["raytools/evaluate/basemetricset.py:BaseMetricSet.illum", "raytools/evaluate/basemetricset.py:BaseMetricSet.avglum", "raytools/evaluate/basemetricset.py:BaseMetricSet.gcr", "raytools/evaluate/metricset.py:MetricSet.backlum", "raytools/evaluate/metricset.py:MetricSet.ugr"]}
{"id": "C166", "title": "Pixel rays are unit vectors up to rounding", "statement": "The ray of every pixel of an angular view has length one with an error below 1.5e-13 in floating point.", "quantifier": "every rounding of the operations within the contract, every view direction and angle, every resolution, every pixel coordinate, in or out of the image", "why_tests_cant": "the radius divides by a distance that tends to zero and takes the root of a difference that cancels; only a bound for all positions excludes a bad pixel", "anchors": ["raytools/mapper/angularmixin.py:AngularMixin.vxy2xyz", "raytools/mapper/mapper.py:Mapper.pixel2ray", "raytools/mapper/mapper.py:Mapper.view2world", "raytools/translate.py:rmtx_yp"]}
{"id": "C167", "title": "Angles of normalised vectors are numbers", "statement": "In the arithmetic of doubles the components of a normalised vector never exceed one, so the polar angle, the rotation of a mapper for every view direction and the angle to the vertical in the position index are never nan. The angle between two directions is never nan because it is clipped.", "quantifier": "every vector of doubles other than zero (off the line of sight for the position index), with an unbounded exponent", "why_tests_cant": "one vector with a component of 1 + 2^-52 gives nan in arccos; the position index then silently becomes 1", "anchors": ["raytools/translate.py:norm", "raytools/translate.py:norm1", "raytools/translate.py:xyz2tp", "raytools/translate.py:rmtx_yp", "raytools/translate.py:ctheta", "raytools/translate.py:radians", "raytools/evaluate/positionindex.py:PositionIndex._to_plane", "raytools/evaluate/positionindex.py:PositionIndex._angle_vv"]}
{"id": "C168", "title": "The calls a batch makes, under every schedule", "statement": "pool_call calls the function at most once for each argument, never with more calls running at the same time than the executor has workers (the cap for processes). When it returns, every call has ended, exactly once per argument; when it raises, no call of the batch is begun afterwards.", "quantifier": "every list of arguments, every function, every number of workers, every interleaving of submissions, starts, ends and collection of results", "why_tests_cant": "depends on the schedule of the workers relative to the collection of results and on which call raises", "anchors": ["raytools/utility.py:pool_call"]}
{"id": "C169", "title": "Metrics are numbers", "statement": "Every metric of a metric set with luminances that are not negative is a finite number, the value of its documented formula; where a formula has no value the result says so consistently.", "quantifier": "every set of rays with luminances and solid angles that are not negative, every option", "why_tests_cant": "0/0, x/0 and logarithms of 0 occur only for particular combinations of rays (dark scenes, sources before black, no ray in the task area), and nan decides comparisons silently", "anchors": ["raytools/evaluate/metricset.py:MetricSet", "raytools/evaluate/basemetricset.py:BaseMetricSet"]}
{"id": "C170", "title": "Forms of the consolidated peak", "statement": "normalize_peak returns the same peak in every form that includes it; the complete arrays are the parts followed by the peak; parts and peak together carry the energy of the input; each array has one row per ray; the peak is a direction, an area and channels, and the secondary sources are a list.", "quantifier": "every set of pixels, every sorting order of equal luminances, every combination of the switches", "why_tests_cant": "the forms are separate code paths, and the exceptional shapes (a single ray left, no bright pixel) depend on the data", "anchors": ["raytools/imagetools.py:normalize_peak", "raytools/imagetools.py:find_peak"]}
{"id": "C171", "title": "Metrics do not depend on the compass", "statement": "Turning the rays and the view together about the vertical axis, or mirroring both in a vertical plane, changes no metric.", "quantifier": "every angle and mirror plane, every view direction and angle, every set of rays, every option and metric name", "why_tests_cant": "a continuous family of scenes; the view basis, the branch for edge rays and the position index each have to commute with the turn", "anchors": ["raytools/evaluate/basemetricset.py:BaseMetricSet", "raytools/evaluate/metricset.py:MetricSet", "raytools/evaluate/positionindex.py:PositionIndex", "raytools/translate.py:rmtx_yp"]}
{"id": "C172", "title": "Metrics do not depend on how finely rays are cut", "statement": "Replacing a ray by several rays of the same direction and luminance that share its solid angle changes no metric other than those that count rays (density, avgraylum).", "quantifier": "every view, every set of rays in view, every way of cutting them, every option and metric name", "why_tests_cant": "every refinement of every ray set; the constructor behaves differently from 101 rays on", "anchors": ["raytools/evaluate/basemetricset.py:BaseMetricSet", "raytools/evaluate/metricset.py:MetricSet"]}
{"id": "C173", "title": "A metric set is a snapshot of what it was made from", "statement": "The metrics of a metric set are those of the rays, luminances, solid angles and mapper at the time it was made, whatever the caller does with those objects afterwards (for a view of less than 360 degrees: whatever happens to the arrays, as long as the mapper is left alone; for 360 degrees the luminances and solid angles must be left alone as well).", "quantifier": "all programs: any sequence of making arrays and mappers, overwriting them, making metric sets of the three classes, assigning attributes and reading metrics, before and after the set is made; all formulas over the dependency graph of the code", "why_tests_cant": "which array is shared and which is copied depends on the view, and a change shows only in metrics that are not remembered: it takes a particular interleaving of reads and writes, of two sets even, to see it", "anchors": ["raytools/evaluate/basemetricset.py:BaseMetricSet.__init__", "raytools/evaluate/basemetricset.py:BaseMetricSet.omega", "raytools/evaluate/colormetricset.py:ColorMetricSet.__init__"]}
{"id": "C174", "title": "Assigning an attribute of a metric set takes effect", "statement": "After ms.scale, ms.tradius, ms.guth, ms.vm or another attribute is assigned, metrics read from the set are those for the new value (they are if and only if nothing remembered about the set has changed; in particular if no metric was read before and the solid angles were not corrected).", "quantifier": "all programs as in C173, all attributes, all metrics", "why_tests_cant": "whether a stale value is returned depends on everything read before, also of other sets, since each metric remembers one set only", "anchors": ["raytools/evaluate/basemetricset.py:BaseMetricSet", "raytools/evaluate/metricset.py:MetricSet"]}
{"id": "C175", "title": "A mapper follows the direction and the aspect assigned to it", "statement": "After any sequence of assignments to vm.dxyz and vm.aspect a view mapper answers like a new mapper for its current direction (any view angle, directions only) or for its current direction and the view angle that belongs to its aspect (hemispheres and full views). Exception found: when the aspect becomes 2 after the last direction was assigned, xyz2vxy and pixelrays raise an AttributeError.", "quantifier": "all directions, all view angles, all histories of assignments of any length", "why_tests_cant": "the rotation, the area, the chord factor and the opposite view are separate attributes kept in step by setters; a test tries one assignment, not every order of them", "anchors": ["raytools/mapper/viewmapper.py:ViewMapper.dxyz", "raytools/mapper/viewmapper.py:ViewMapper.aspect", "raytools/mapper/mapper.py:Mapper.__init__", "raytools/mapper/angularmixin.py:AngularMixin.pixelrays"]}
{"id": "C176", "title": "Writing an image finishes with the whole picture under every schedule", "statement": "array2hdr and carray2hdr return, and the file then holds exactly what pvalue (and getinfo, when a header is given) make of all pixels, however the operating system interleaves python, pvalue and getinfo and whatever the capacity of the pipes between them. Exceptions found: an array with one or two channels and a header never returns; without a header it returns with an incomplete file; with four channels or more the call returns or raises BrokenPipeError depending on the schedule.", "quantifier": "all arrays, all filters in place of the two programs, all pipe capacities, all fair schedules of the three processes", "why_tests_cant": "deadlock freedom and determinism are statements about every interleaving and every buffer size", "anchors": ["raytools/io.py:_array2hdr", "raytools/io.py:array2hdr", "raytools/io.py:carray2hdr"]}
{"id": "C177", "title": "Reading an image or its header finishes under every schedule", "statement": "hdr2array, hdr2carray and hdr_header end, and use exactly what the program printed, however python and the program are interleaved and whatever the capacity of the pipes. Exception found: the readers of pixels do not read the error stream, so a program that prints more messages than its pipe holds blocks for ever and the call never returns; hdr_header reads both streams and always ends.", "quantifier": "all texts printed on the two streams in any order, all pipe capacities, all fair schedules", "why_tests_cant": "deadlock freedom is a statement about every interleaving and every amount of output", "anchors": ["raytools/io.py:_hdr_in", "raytools/io.py:hdr2array", "raytools/io.py:hdr2carray", "raytools/io.py:hdr_header"]}
{"id": "C178", "title": "Sky coordinates survive the round trip in rounded arithmetic", "statement": "uv2xyz followed by xyz2uv returns the coordinates within 1e-13 in floating point, over the upper square with the default arguments and over both squares with xsign=-1 and flipu=True, and xyz2skybin(skybin2xyz(b)) returns every patch number exactly for up to 10^24 patches. Exception found: closer than 1e-14 to the edge of the lower square the height rounds to zero and the round trip ends in the other hemisphere.", "quantifier": "all coordinates in the rectangle, all patch numbers and patch counts, every arithmetic with relative error 2^-52 per operation (IEEE doubles are shown to be one)", "why_tests_cant": "rounding differs at every one of 2^128 inputs, and the branch boundaries lie on sets tests do not hit", "anchors": ["raytools/translate.py:uv2xyz", "raytools/translate.py:xyz2uv", "raytools/translate.py:skybin2xyz", "raytools/translate.py:xyz2skybin"]}
{"id": "C179", "title": "Neighbouring directions have neighbouring coordinates and back", "statement": "Within a hemisphere xyz2uv moves by at most 2.25 times the distance of two directions, also where the angle jumps and at the diagonals of the square. uv2xyz moves by at most 14 times the difference of coordinates within a square, and 28 times over the whole rectangle: the squares are joined without a seam at u = 1. The horizon is a seam of xyz2uv: arbitrarily near directions have coordinates one apart.", "quantifier": "all pairs of unit directions in the same hemisphere, all pairs of coordinates in the rectangle, both signs and both flips", "why_tests_cant": "continuity is a statement about all pairs, and the suspicious ones lie on curves of measure zero", "anchors": ["raytools/translate.py:xyz2uv", "raytools/translate.py:uv2xyz"]}
{"id": "C180", "title": "Directions survive the round trip through coordinates in rounded arithmetic", "statement": "For every direction whose length is one up to 1e-14, uv2xyz(xyz2uv(p, flipu=True), xsign=-1) is within 5e-12 of p in every component, on the whole sphere including the horizon, the diagonals of the squares and the places where coordinates are computed slightly outside of the rectangle or in the other hemisphere; above the horizon the same holds in the orientation of the sky patches.", "quantifier": "all directions of length one up to 1e-14, every arithmetic with relative error 2^-52 per operation", "why_tests_cant": "rounding differs at every input, and at the joints of the squares it changes branches", "anchors": ["raytools/translate.py:xyz2uv", "raytools/translate.py:uv2xyz"]}
{"id": "C181", "title": "Smoothing with a median or quantiles", "statement": "non_uniform_gaussian_filter with amethod 'median' or quantiles returns, for every output point, one value per quantile, between values of samples with positive weight there (the smallest of them at 0 and the largest at 1, larger quantiles give larger values), and where no sample has weight the interpolation of its neighbours; quantiles outside [0,1], text that is not a number and several quantiles of several features are refused with ValueError. A weighted quantile asked for together with others has the value it has alone.", "quantifier": "all data, positions, sigma, bandwidths, lists of quantiles, and every order a sort may leave ties in", "why_tests_cant": "continuum of weights and an unstable sort", "anchors": ["raytools/translate.py:non_uniform_gaussian_filter", "raytools/translate.py:weighted_quantile", "raytools/translate.py:weighted_median"]}
{"id": "C182", "title": "Smoothing while resampling keeps the mean and the range", "statement": "translate.resample with a requested shape that is a whole multiple of the array's shape and gauss=True (the default), for any radius (none, one number, one per axis), returns an array of the requested shape with the mean of the input and no entry outside the range of the input; smoothing an array in place (same shape) keeps its mean, whichever filter is chosen.", "quantifier": "every array of positive sizes and any number of axes, every whole factor per axis, every radius (and, in place, both filters)", "why_tests_cant": "the sum is preserved only because of what the filter does at the edges, for every size of kernel, also kernels wider than the array; a test compares a few sizes to a tolerance", "anchors": ["raytools/translate.py:resample"]}
{"id": "C183", "title": "The blurs of the eye neither make nor lose light and keep points in place", "statement": "In GSS, gaussian_filter as used for eye movements, adaptation and lateral inhibition is an average of the pixels with fixed weights, and keeps the total of the image; eye movement steps keep the total; the point spread step scales the total by exactly the share of light inside its window, the constant added balances the rest when pixels have equal solid angle; the blur of a point is centred on the point.", "quantifier": "every image size, content, filter width and truncation, every eye, every kernel width", "why_tests_cant": "preservation depends on reflection at every edge for every kernel size; displacement by a fraction of a pixel shows only in the parity of a computed window", "anchors": ["raytools/evaluate/hvsgsm.py:GSS.apply_psf", "raytools/evaluate/hvsgsm.py:GSS.apply_eye_movement_1", "raytools/evaluate/hvsgsm.py:GSS.apply_eye_movement_2"]}
{"id": "C184", "title": "Moving an image between views keeps its values", "statement": "transform_to returns no value outside the range of the image (together with the zero used outside the view): with nearest every value is a pixel of the image; with linear interpolation values are blends of neighbouring pixels; an image moved to its own view is unchanged inside the view; evenly changing and constant images are reproduced exactly.", "quantifier": "every pair of angular views, every square image, both interpolation methods, every pixel", "why_tests_cant": "the values read in the outer half of border pixels are extrapolated; whether they occur depends on a continuum of view pairs", "anchors": ["raytools/mapper/viewmapper.py:ViewMapper.transform_to"]}
{"id": "C185", "title": "The ganglion cell density is the measured one", "statement": "rgc_density_on_meridian returns the measured density at every measured eccentricity, never less than one nor more than the largest measurement, has no jumps, rises from the fovea to the peak of the meridian and falls from there; the four meridians agree at the fovea; rgc_density stays in the same range.", "quantifier": "every eccentricity (also outside of the measured ones), every meridian, every point of the visual field", "why_tests_cant": "continuity, monotony and bounds range over a continuum of eccentricities", "anchors": ["raytools/evaluate/retina.py:rgc_density_on_meridian", "raytools/evaluate/retina.py:rgc_density", "raytools/evaluate/retina.py:_curcio_nozero"]}
{"id": "C186", "title": "Conversions use complete pictures only, whatever happens to their input", "statement": "When the input of project, solid, align or cleanheader is replaced, emptied or removed while the command runs, an image is written only if each process that read pixels or header saw a complete picture; its pixels are the conversion of the pixels that were read, its header that of the header that was read, and the view is the one of the process that read the view.", "quantifier": "every conversion, every sequence of states the reading processes see", "why_tests_cant": "the versions seen depend on the timing of up to four processes", "anchors": ["raytools/imagetools.py:hdr_uv2ang", "raytools/imagetools.py:hdr_ang2uv", "raytools/imagetools.py:hdr_solid2ang", "raytools/imagetools.py:hdr_rotate", "raytools/io.py:hdr2carray", "raytools/cli.py:cleanheader"]}
{"id": "C187", "title": "Rays drawn with grow are squares", "statement": "add_vecs_to_img with grow=g draws each ray as a square of 2g+1 by 2g+1 pixels with the value of the channel and leaves everything else in the image alone; in an image with channels each channel gets its part of the colour and None leaves a channel alone.", "quantifier": "every image, every list of rays, every whole number grow, planar and angular mappers", "why_tests_cant": "depends on where rays fall with respect to each other and to the border", "anchors": ["raytools/mapper/mapper.py:Mapper.add_vecs_to_img", "raytools/mapper/angularmixin.py:AngularMixin.add_vecs_to_img"]}
{"id": "C188", "title": "plot shows every ray of the view", "statement": "The image that plot writes shows every ray that lies in the view of the mapper, at its pixel and with at least the value of the channel.", "quantifier": "every view, list of rays and resolution", "why_tests_cant": "unbounded lists of rays and a continuum of views", "anchors": ["raytools/mapper/mapper.py:Mapper.plot", "raytools/mapper/angularmixin.py:AngularMixin.framesize"]}
{"id": "C189", "title": "imgmetric evaluates every image with a view", "statement": "imgmetric returns the requested metrics for every image whose header describes a view, also for images of both hemispheres (twice as wide as high, as init_img and uv2ang make them) and for images that are not square; hdr2vol returns one direction, one solid angle and one value per pixel.", "quantifier": "every width, height, view, picture and list of luminance metrics", "why_tests_cant": "depends on the shapes of arrays that are made in different places", "anchors": ["raytools/imagetools.py:imgmetric", "raytools/imagetools.py:hdr2vol", "raytools/mapper/angularmixin.py:AngularMixin.pixelrays", "raytools/mapper/mapper.py:Mapper.pixels", "raytools/evaluate/basemetricset.py:BaseMetricSet.__init__"]}
{"id": "C190", "title": "The printed table can be read back", "statement": "The table printed by the metric command can be read back by a program that splits lines at newlines and cells at tabs: it has one line per image in order, one cell per requested metric, and every cell read as a decimal number is within five millionths of the computed result, has its sign, keeps the order of results, and is exact for results of at most six significant digits; infinities and nan are told apart from numbers and from each other.", "quantifier": "every list of metric names, every list of image names and every computed result", "why_tests_cant": "the number of digits before and after the point, the exponent and the rounding depend on the value; names are arbitrary", "anchors": ["raytools/cli.py:metric"]}
{"id": "C191", "title": "Every response image is saved under the name of its image", "statement": "gss_compute with save=True leaves, for every image of a list of different images, its response image under the image's name with the suffix (in the output directory if one is given), whatever the number of workers and their schedule; the images themselves and all other files stay as they are; metric with gss, gssnb and --gssimage saves the responses of both models.", "quantifier": "every list of image names, every output directory, every content, every schedule of the tasks, every response function", "why_tests_cant": "depends on the names in the list and on which task writes last", "anchors": ["raytools/evaluate/hvsgsm.py:gss_compute", "raytools/evaluate/hvsgsm.py:process_gss", "raytools/cli.py:metric"]}
{"id": "C192", "title": "The view of an image is the one in its header", "statement": "hdr2vm gives an image the view Radiance gives it: the last header line that begins with VIEW=, if that is an angular view, and no view otherwise; views of pictures it was made from (indented lines) and older views do not matter.", "quantifier": "every header (any number of lines, any views of any type in any order, indented or not), every path", "why_tests_cant": "depends on how lines of every possible header contain each other's text", "anchors": ["raytools/imagetools.py:hdr2vm"]}
{"id": "C193", "title": "Images of whole numbers are moved like images of floats", "statement": "transform_to of an array of whole numbers returns the values it returns for the same numbers as floats.", "quantifier": "every pair of views, every image of whole numbers, both interpolation methods, every pixel", "why_tests_cant": "depends on the type of the array the values are stored in, for every blend of every image", "anchors": ["raytools/mapper/viewmapper.py:ViewMapper.transform_to"]}
{"id": "C194", "title": "An angular image turned into a square one and back", "statement": "Converting a 180 degree angular image to the square layout with array_ang2uv and back with array_uv2ang returns the image inside the circle as it was.", "quantifier": "every resolution, every image, every direction of view, every pixel", "why_tests_cant": "the two conversions round positions in different places, and where they disagree depends on the resolution", "anchors": ["raytools/imagetools.py:array_ang2uv", "raytools/imagetools.py:array_uv2ang", "raytools/translate.py:uv2xyz", "raytools/translate.py:xyz2uv"]}
{"id": "C195", "title": "A square image turned into an angular one and back", "statement": "Converting a square image to the angular layout with array_uv2ang and back with array_ang2uv loses no cell: every cell holds a value of the square image, moved by at most one cell.", "quantifier": "every resolution, every image, every direction of view, every cell", "why_tests_cant": "pixels whose centre is outside the circle are dropped, which of them are read back depends on the resolution", "anchors": ["raytools/imagetools.py:array_uv2ang", "raytools/imagetools.py:array_ang2uv", "raytools/mapper/angularmixin.py:AngularMixin.init_img"]}
{"id": "C196", "title": "A planar pixel comes back after rounding", "statement": "For a planar mapper, ray2pixel(pixel2ray(centre of pixel (i, j))) is pixel (xres-1-i, j) (mirrored as in C48) when every operation of the two methods is rounded like a double, for every bounding box that is not empty and every resolution; the normalised coordinates come back with an error of at most 6e-15 times one plus the distance of the box from the origin in box sizes.", "quantifier": "all arithmetics within one unit in the last place (binary64 is one), all boxes, all resolutions, all pixels", "why_tests_cant": "the error depends on where the box lies and on the resolution; a test tries a few boxes near the origin and exact-looking numbers", "anchors": ["raytools/mapper/mapper.py: Mapper.uv2xyz, Mapper.xyz2uv, Mapper.pixel2ray, Mapper.ray2pixel"]}
{"id": "C197", "title": "A weighted quantile splits the weight", "statement": "The counted weight of the values below weighted_quantile(d, w, q) is at most the part q of the total counted weight, and that of the values above it at most the part 1-q.", "quantifier": "all lists of values and weights, all q in [0,1], all thresholds, every order numpy's sort may give equal values", "why_tests_cant": "which weights count only shows for particular orders of values and weights; tests use similar weights", "anchors": ["raytools/translate.py: weighted_quantile, weighted_median"]}
{"id": "C198", "title": "The size of an image does not depend on its name", "statement": "img_size(imgf) returns the width and height getinfo -d prints, for every file name and for all eight orientations of the pixels.", "quantifier": "all file names, all orientations, all sizes, all readings of integers", "why_tests_cant": "the words of the name are searched for the letters X and Y like the axes; only particular names collide", "anchors": ["raytools/imagetools.py: img_size, hdr2vm"]}
{"id": "C199", "title": "Equal areas of the square are equal solid angles", "statement": "The square-to-hemisphere map (uv2xyz) preserves area up to the constant 2\u03c0: the integral of any quantity over the unit square equals its solid-angle integral over the hemisphere divided by 2\u03c0, and likewise for the 2 by 1 rectangle and the sphere. Consequently every grid cell and every sky patch of any resolution takes up exactly 2\u03c0/side\u00b2 steradians, and the plain mean of a continuous quantity over the sky patch centres tends to its average over the solid angle of the sky.", "quantifier": "every non-negative extended-real function of the direction (no regularity needed), both signs of the first axis, every side >= 1, every bin number, normalised or not; every continuous function for the mean", "why_tests_cant": "An integral identity over every function and an exact area for every cell of every resolution; tests can only sample a few resolutions to a tolerance.", "anchors": ["raytools/translate.py: uv2xyz, xyz2uv, uv2bin, xyz2skybin, skybin2xyz"]}
{"id": "C200", "title": "Converting an image between projections keeps its light", "statement": "Picture a scene whose brightness varies continuously with direction. (a) If a 180 degree angular image holding the scene at its pixel centres is turned into a square image with array_ang2uv, the plain mean of the square image tends, as the resolution grows, to the average of the scene over the solid angle of the view's hemisphere. (b) If a square image holding the scene at its cell centres is turned into an angular image with array_uv2ang, the sum over its pixels of value, weight and solid angle (pixel2omega) tends to the integral of scene times weight over the hemisphere, for every continuous weight of the direction: weight one gives the total light, the cosine to the line of sight gives the illuminance.", "quantifier": "every continuous scene and weight, every direction of view for (a), all resolutions (limit)", "why_tests_cant": "a limit over all resolutions and a statement about all continuous scenes; a test sees one image at one size", "anchors": ["raytools/imagetools.py: array_ang2uv, array_uv2ang", "raytools/mapper/angularmixin.py: xyz2uv, uv2xyz, xyz2vxy, vxy2xyz, pixel2omega, in_view, init_img"]}
{"id": "C201", "title": "Converting between equisolid and equiangular pictures keeps the light", "statement": "Picture a scene whose brightness varies with direction no faster than some steepness. (a) Over the circle of a 180 degree equisolid photograph the plain sum times the solid angle of one pixel tends to the integral over the hemisphere. (b) Convert such photographs (whatever lies outside the circle) with array_solid2ang, linear or nearest: from some resolution on, the sum over the pixels in view of value, any continuous weight and pixel2omega is the integral of scene times weight over the hemisphere up to 3.6e-8 times steepness and largest weight and any chosen allowance. (c) Convert angular pictures with reverse=True: from some resolution on, the plain sum over the circle is that integral up to 4.5e-8 times steepness and largest weight and any chosen allowance. The 1e-8 parts come from the 1e-9 the code adds to a denominator.", "quantifier": "every continuous scene of bounded steepness, every continuous weight, both interpolations, both directions, 180 degree images of every size beyond some resolution", "why_tests_cant": "a statement about all scenes and all sufficiently large resolutions, with a limit; a test sees one image", "anchors": ["raytools/imagetools.py: array_solid2ang", "raytools/mapper/viewmapper.py: solid_vxy2xyz, solid_xyz2vxy, solid_pixel2ray, solid_ray2pixel", "raytools/mapper/angularmixin.py: pixel2omega, in_view", "raytools/mapper/mapper.py: Mapper.pixel2ray"]}
{"id": "C202", "title": "Turning and aligning pictures keeps the light", "statement": "Picture a scene whose brightness varies continuously with direction as 180 degree angular images. (a) Turn and align them with array_rotate (any angle, no centre, a centre or a pair of points, linear or nearest, any fill value): from some resolution on, which depends on the scene and two tolerances only, every pixel whose direction comes from inside the picture holds the scene in the direction it comes from; the directions are moved by one rigid map. (b) Turning by any angle: the sum over the pixels in view of value, any continuous weight and solid angle tends to the integral of the turned scene times weight over the hemisphere. (c) Total light and illuminance (every weight that is constant around the line of sight) of the turned picture tend to those of the picture itself. The half pixel the linear method is off by (C111) disappears in the limit.", "quantifier": "every continuous scene and weight, every angle, centre, fill value and interpolation, whatever the image holds outside the circle, all resolutions beyond some one (limit)", "why_tests_cant": "a limit over all resolutions and all continuous scenes; a single image is wrong by half a pixel", "anchors": ["raytools/imagetools.py: array_rotate", "raytools/mapper/angularmixin.py: xyz2vxy, vxy2xyz, pixel2omega, in_view", "raytools/mapper/mapper.py: Mapper.pixel2ray, Mapper.ray2pixel"]}
{"id": "C203", "title": "A worker process that is killed", "statement": "When worker processes of pool_call are killed at any moments, the call comes back: with exactly the outcome of the sequential loop (all results in order, or the exception of the first failing argument), or by raising BrokenProcessPool, the latter only if a worker has died. It never returns an incomplete or misplaced list, and it never waits for ever.", "quantifier": "every function, argument list whose items expand, number of workers, schedule of submissions, starts, completions and result retrievals, every crash point, executors that close under their lock and executors that do not", "why_tests_cant": "crash points and schedules: the waiting for ever happens only if the death is noticed between two steps of one submission", "anchors": ["raytools/utility.py: pool_call, TStqdm"]}
{"id": "C204", "title": "Functions that leave something behind", "statement": "pool_call documents its result as equivalent to the loop. For functions that read and change memory (globals, caches, their arguments): whatever the interleaving of the steps of the calls, with threads and with processes, the outcome is that of the loop.", "quantifier": "every function given as steps on interpreter memory and arguments, every argument list, number of workers, interleaving, initial memory (fork and forkserver)", "why_tests_cant": "interleavings of calls that share memory; a single run usually gives the order of the loop", "anchors": ["raytools/utility.py: pool_call, TStqdm"]}
{"id": "C205", "title": "A view cut out of a picture shows the scene", "statement": "Take pictures of a scene whose brightness varies continuously with direction, in any angular view up to 180 degrees, and let another view cut itself out of them with transform_to (reading the picture as one of the other view, see C91; linear or nearest). (a) From some resolution on, which depends on the scene, the view of the pictures and two tolerances only, every pixel whose direction is inside the cone of the picture holds the scene in its own direction, for every direction and size of the view cut out; pixels whose direction is outside the cone are zero. (b) If the view cut out lies inside the picture (angle between the lines of sight plus half angle less than the other half angle), the sum over its pixels in view of value, any continuous weight and solid angle tends to the integral of scene times weight over its cone.", "quantifier": "every continuous scene and weight, all directions of view that are vertical or not nearly vertical, all view angles up to 180 degrees, both interpolations, whatever the picture holds outside its circle, all resolutions beyond some one (limit)", "why_tests_cant": "a limit over all resolutions, scenes and pairs of views", "anchors": ["raytools/mapper/viewmapper.py: transform_to", "raytools/mapper/angularmixin.py: in_view, xyz2vxy, vxy2xyz, pixel2omega", "raytools/mapper/mapper.py: ray2pixel, pixelrays"]}
{"id": "C206", "title": "Rounding does not move a direction across the rim of a view", "statement": "in_view(vec), computed in double precision with normalised vectors, says that a direction is in the view exactly when the true angle between the direction and the view direction is less than half the view angle (plus tol).", "quantifier": "all view directions and vectors other than zero, all view angles up to 360 degrees and chord factors, all tolerances up to 4 radians, every arithmetic with the error bounds of double precision, and for images all resolutions and pixels of all mappers", "why_tests_cant": "The rounding error depends on every bit of the vectors and is amplified without bound near the line of sight; the vectors on the rim are a null set no test hits.", "anchors": ["raytools/mapper/angularmixin.py: in_view, ctheta, radians", "raytools/translate.py: norm, norm1", "raytools/mapper/mapper.py: pixelrays"]}
{"id": "C207", "title": "Pictures keep their values when they are saved and read", "statement": "A picture written with array2hdr or carray2hdr and read with hdr2array or hdr2carray has every grey pixel and every sum of pixels with nonnegative weights (illuminance, mean luminance) within 0.4 per cent of what was written, every colour channel within 0.4 per cent of the brightest channel of its pixel and its luminance within 6.2 per cent; black stays black in grey pictures; a brighter pixel is never read darker than a darker one; writing again what was read gives the same bytes.", "quantifier": "all pictures of any size with channels from 2e-32 up to 2^126 (or zero), all pixels, all weights, every rounding to 4 byte floats", "why_tests_cant": "Four bytes per pixel with a common exponent: the error depends on the position of every value in its binade, over 2^32 codes and a continuum of values, and a chain of conversions saves and reads any number of times.", "anchors": ["raytools/io.py: array2hdr, carray2hdr, hdr2array, hdr2carray, np2bytes"]}
{"id": "C208", "title": "rgbe2lum agrees with reading the picture", "statement": "rgbe2lum of the four stored bytes of a pixel is the luminance (rgb2lum) of that pixel as hdr2carray reads it.", "quantifier": "all pictures and pixels", "why_tests_cant": "2^32 codes and two independent decoders, one in this repository and one in Radiance.", "anchors": ["raytools/io.py: rgbe2lum, rgb2lum, hdr2carray"]}
{"id": "C209", "title": "The centre of a view is its direction, in double precision", "statement": "After dxyz is set to v, view2world((0, 0, 1)), the direction shown in the centre of the image, is v / |v| up to rounding, for every vector other than zero.", "quantifier": "all view directions, every rounding of the operations within their error bounds; all vectors in the arithmetic of doubles", "why_tests_cant": "The angles go through an arc cosine, an arc tangent and two remainders with branches for vertical directions; the directions that fall between the branches after rounding are a set of size 1e-8 that no test picks.", "anchors": ["raytools/translate.py: rmtx_yp, xyz2tp, tpnorm, norm, norm1", "raytools/mapper/viewmapper.py: ViewMapper.dxyz", "raytools/mapper/mapper.py: Mapper.view2world"]}
{"id": "C210", "title": "Angles and directions agree in double precision", "statement": "tp2xyz(xyz2tp(p)) and aa2xyz(xyz2aa(p)) give back a normalised vector p up to rounding, and the altitude of p is the arc sine of its z in degrees up to rounding.", "quantifier": "all unit vectors (to 1e-14), every rounding of the operations within their error bounds", "why_tests_cant": "Six roundings, two remainders and the branches for vertical directions on the way; the arc cosine loses half the digits near the vertical, so the error depends on the direction over a continuum.", "anchors": ["raytools/translate.py: tpnorm, tp2xyz, xyz2tp, aa2xyz, xyz2aa, norm"]}
{"id": "C211", "title": "Metrics change little when luminances change little, for instance when a picture is saved and read", "statement": "If every luminance of a metric set changes by at most the fraction eps, then illuminance, average luminance, position weighted average luminance, task luminance and ray average change by at most the fraction eps, and the contrast ratio gcr by at most the factor ((1 + eps) / (1 - eps))^2. The glare ratings ugr, ugp and dgp also change little. So metrics computed from a picture that was saved with array2hdr and read with hdr2array agree with those of the array.", "quantifier": "every view, option, list of rays with nonnegative luminance, solid angle and cosine, and every change of luminances within eps < 1", "why_tests_cant": "A statement on all pairs of pictures near one another; tests compare single pictures, and the jump at the threshold needs a pixel within 0.4 per cent of it.", "anchors": ["raytools/evaluate/basemetricset.py", "raytools/evaluate/metricset.py:MetricSet", "raytools/io.py:array2hdr", "raytools/io.py:hdr2array"]}
{"id": "C212", "title": "A weighted quantile follows the data", "statement": "When every value changes by at most delta, a weighted quantile changes little (with equal weights, or values further apart than they may move, by at most delta). When all values are shifted by b and scaled by a > 0, the quantile is shifted and scaled alike.", "quantifier": "every list of values and weights, every quantile in [0, 1], every threshold, every change of values and every order an unstable sort may give", "why_tests_cant": "A statement on all pairs of lists near one another and on every outcome of the sort; the jump needs two values that pass one another with different weights.", "anchors": ["raytools/translate.py:weighted_quantile", "raytools/translate.py:weighted_median"]}
{"id": "C213", "title": "Turning the data over turns the quantile over", "statement": "The weighted median of the values with the opposite sign is the weighted median with the opposite sign, and the quantile 1 - q of the former is the opposite of the quantile q.", "quantifier": "every list of values and weights, every quantile in [0, 1], every threshold", "why_tests_cant": "Must hold for every list of weights; with equal weights, as in most tests, it does hold.", "anchors": ["raytools/translate.py:weighted_quantile", "raytools/translate.py:weighted_median"]}
{"id": "C214", "title": "Several quantiles at once are the quantiles one at a time", "statement": "weighted_quantile with an array of quantiles in [0, 1] gives for each of them what it gives for that quantile alone (for the same order of tied values).", "quantifier": "every list of values and weights, every nonempty array of quantiles in [0, 1], every threshold", "why_tests_cant": "An index error for one quantile changes the formula for all of them; that no list of weights triggers this with more than one value is a statement on all inputs.", "anchors": ["raytools/translate.py:weighted_quantile"]}
{"id": "C215", "title": "Weighted quantiles in double precision", "statement": "In double precision a weighted quantile is a number between two neighbouring values up to rounding, nothing is divided by zero, and it agrees with the exact one up to rounding.", "quantifier": "every sorted list of values with positive double weights, every quantile in [0, 1]", "why_tests_cant": "Must hold for every list of weights; the loss needs weights whose ratio is beyond 2^54.", "anchors": ["raytools/translate.py:weighted_quantile"]}
{"id": "C216", "title": "Near quantiles have near values", "statement": "When q changes a little, the weighted quantile changes a little: at most the steepest step per weight between neighbouring values, times the sum of the weights, times the change of q.", "quantifier": "every sorted list of values with weights, every threshold, every pair of quantiles in [0, 1]", "why_tests_cant": "A bound on the change must hold for every pair of quantiles and all data; the place where it fails is a band of 1e-5 below 1.", "anchors": ["raytools/translate.py:weighted_quantile"]}
{"id": "C217", "title": "Culling decides in the order of the input", "statement": "cull_vectors goes through the vectors in order and keeps those farther than the tolerance from all kept before. So vectors added at the end do not change what is said about earlier ones, culling again removes nothing, culling batch by batch is culling everything, turning or shifting the vectors does not change the mask, and the tolerance zero keeps each different vector once.", "quantifier": "every list of vectors in any space with distances, every tolerance, every distance preserving map", "why_tests_cant": "Chains of near vectors of any length decide what is kept; a test only sees single arrangements.", "anchors": ["raytools/translate.py:cull_vectors"]}
{"id": "C218", "title": "A larger tolerance keeps fewer vectors", "statement": "When the tolerance of cull_vectors grows, the number of vectors kept does not grow.", "quantifier": "every list of vectors and every pair of tolerances", "why_tests_cant": "Must hold for every arrangement; the exception needs a vector that is culled with the larger tolerance only and hid several others.", "anchors": ["raytools/translate.py:cull_vectors"]}
{"id": "C219", "title": "Culling in double precision", "statement": "In double precision cull_vectors still goes through the vectors in order: a vector is kept exactly when it is not found within the tolerance of one kept before. Kept vectors are farther apart than the tolerance and removed ones are within it of an earlier kept one, up to a factor of 1 +- 2^-50.", "quantifier": "every list of vectors and every tolerance, in binary64 with an unbounded exponent", "why_tests_cant": "Rounded distances do not satisfy the triangle inequality; that chains are still decided consistently must hold for every list of vectors.", "anchors": ["raytools/translate.py:cull_vectors"]}
{"id": "C220", "title": "Weighted quantiles of data with missing entries", "statement": "Entries of weighted_quantile whose weight or value is NaN are left out.", "quantifier": "every list of values and weights with missing entries, every threshold and quantile", "why_tests_cant": "Which quantiles are spoilt depends on the weights of all entries; a test only sees single lists.", "anchors": ["raytools/translate.py:weighted_quantile"]}
{"id": "C221", "title": "Chords and angles in double precision", "statement": "In double precision theta2chord never returns a chord that chord2theta cannot take, a chord comes back from its angle, and an angle up to 180 degrees comes back from its chord, with the accuracy of double precision.", "quantifier": "every double angle in [0, pi] and every double chord in [0, 2]", "why_tests_cant": "Must hold for every float; the loss is within 1e-8 of 180 degrees.", "anchors": ["raytools/translate.py:chord2theta", "raytools/translate.py:theta2chord"]}
{"id": "C222", "title": "Angles between directions in double precision", "statement": "In double precision the angle between two normalised vectors is a number between 0 and 180 degrees, does not depend on their order, and is the angle between the vectors with the accuracy of double precision.", "quantifier": "every pair of vectors other than zero", "why_tests_cant": "Must hold for every pair of vectors; the loss is at small angles and near 180 degrees.", "anchors": ["raytools/translate.py:radians", "raytools/translate.py:ctheta", "raytools/translate.py:norm"]}
{"id": "C223", "title": "Reflection in double precision", "statement": "In double precision reflect returns the mirror image of a normalised ray at a normalised normal up to rounding, never masks it as invalid, and reflecting twice gives the ray back up to rounding.", "quantifier": "every ray and every normal other than zero", "why_tests_cant": "Must hold for every pair of directions; the mask drops rays without notice when rounding moves the length.", "anchors": ["raytools/translate.py:reflect", "raytools/translate.py:norm"]}
{"id": "C224", "title": "Rotations about an axis in double precision", "statement": "In double precision rotate_elem turns a vector about a coordinate axis by the given angle up to a rounding error proportional to the size of the vector and to the angle, keeps the coordinate along the axis bit for bit and the length up to rounding, returns the vector up to rounding after a full turn; two turns about one axis are a turn by the sum of the angles up to rounding, so the opposite angle undoes a turn.", "quantifier": "every vector, every axis, every angle in degrees or radians (up to a million radians for lengths and repeated turns)", "why_tests_cant": "Must hold for every vector and every angle; the error grows with the angle, so samples near zero do not bound it.", "anchors": ["raytools/translate.py:rmtx_elem", "raytools/translate.py:rotate_elem"]}
{"id": "C225", "title": "Quarter turns in double precision", "statement": "Turning by k times 90 degrees about a coordinate axis exchanges coordinates and signs exactly as k quarter turns do.", "quantifier": "every axis, every k and every vector of doubles", "why_tests_cant": "Must hold for every vector and every k; the error is of the order of 1e-17, so a test with a tolerance passes while exact comparisons with zero fail.", "anchors": ["raytools/translate.py:rmtx_elem", "raytools/translate.py:rotate_elem"]}
{"id": "C226", "title": "Many turns do not add up to more than rounding", "statement": "After any number of turns by any angles about one axis, the vector computed in double precision differs from the vector turned once by the sum of the angles by at most the compounded relative error of the single turns; 360 turns by one degree return the vector to 12 digits.", "quantifier": "every sequence of angles of any length, every axis, every vector, degrees or radians", "why_tests_cant": "Must hold for every number of turns; drift shows only over sequences longer than tests run.", "anchors": ["raytools/translate.py:rmtx_elem", "raytools/translate.py:rotate_elem"]}
{"id": "C227", "title": "Normalising in double precision", "statement": "In double precision norm gives opposite vectors opposite directions bit for bit, ignores a factor that is a power of two bit for bit, ignores any other positive factor up to rounding, and changes an already normalised vector by rounding only.", "quantifier": "every vector, every power of two, every positive factor (vectors other than zero for the bounds)", "why_tests_cant": "Must hold for every vector and every factor; rounding differs from vector to vector.", "anchors": ["raytools/translate.py:norm"]}
{"id": "C228", "title": "Symmetries of reflection in double precision", "statement": "In double precision reflection gives the same result for a normal and its opposite, opposite results for opposite rays, passes a power of two as a factor of the ray through, and at a mirror across a coordinate axis changes the sign of one coordinate and nothing else, so that reflecting twice there gives the ray back: all bit for bit.", "quantifier": "every ray and every normal; every ray of doubles for mirrors across an axis", "why_tests_cant": "Equality of every bit must hold for every pair of vectors; rounding differs from pair to pair.", "anchors": ["raytools/translate.py:reflect"]}
{"id": "C229", "title": "Symmetries of rotations in double precision", "statement": "In double precision rotate_elem gives opposite results for opposite vectors, passes a power of two as a factor of the vector through, turns by the opposite angle exactly as it turns the mirror image (in a mirror containing the axis), and by an angle of zero returns the vector: all bit for bit.", "quantifier": "every vector, every axis, every angle in degrees or radians; every vector of doubles for the angle zero", "why_tests_cant": "Equality of every bit must hold for every vector and every angle; rounding differs from case to case.", "anchors": ["raytools/translate.py:rmtx_elem", "raytools/translate.py:rotate_elem"]}
{"id": "C230", "title": "Culling does not depend on sign, mirror or unit", "statement": "In double precision cull_vectors returns the same mask for the opposite vectors, for vectors mirrored across a coordinate plane, and for vectors and tolerance multiplied by one power of two.", "quantifier": "every list of vectors of any length, every tolerance, every axis, every power of two", "why_tests_cant": "Must hold for every list of vectors, also with distances that rounding puts on the tolerance.", "anchors": ["raytools/translate.py:cull_vectors"]}
